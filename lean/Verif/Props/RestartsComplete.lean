import Verif.Props.Restarts

/-!
# Nothing is lost over restarts (C79)

The other direction of `Props/Restarts.lean`: what an interrupted and continued job hands over, over all lives together, is all
that an uninterrupted job hands over.
-/

set_option linter.unusedSectionVars false

namespace Mixtera.Torch

variable {K : Type} [DecidableEq K]

section lives

variable {σ ι α : Type}

/-- As `Lives`, for a job without failures: no request failed, and the status from which each worker of a group is continued is
the position of one of the loaders with that worker number in that group, none of which is ahead of it. -/
inductive SmoothLives (S : Source σ ι (Parcel K α)) (G N W : Nat) (d0 : Dist σ (Parcel K α)) :
    Train σ K α → (DReq → Option (Parcel K α)) → (DReq → List (Nat × α)) → List ι → Prop
  | start : SmoothLives S G N W d0 (Train.start d0) (fun _ => none) (fun _ => []) []
  | events (t : Train σ K α) (last : DReq → Option (Parcel K α)) (kept : DReq → List (Nat × α)) (mixes : List ι)
      (h : SmoothLives S G N W d0 t last kept mixes) (es : List (TEv ι)) (hv : ∀ e ∈ es, e.Valid G N W)
      (hno : ∀ r e, (r, Ans.raised e) ∉ (t.run S es).2) :
      SmoothLives S G N W d0 (t.run S es).1 (lastReceived last (t.run S es).2) kept (mixes ++ pokes (requests es))
  | restart (t : Train σ K α) (last : DReq → Option (Parcel K α)) (kept : DReq → List (Nat × α)) (mixes : List ι)
      (h : SmoothLives S G N W d0 t last kept mixes) (ha : t.dist.aligned = true)
      (status : Nat → Nat → Option Nat) (saved : Saved (Parcel K α)) (hs : t.dist.persist Parcel.setSkip status = .ok saved)
      (hgiven : ∀ r c, last r = some c → (t.loaders r).pending.length < c.read.length)
      (hstatus : ∀ r c, last r = some c → ∃ n < N,
        status r.group r.worker = some (t.loaders ⟨r.group, n, r.worker⟩).status ∧
        (t.loaders r).status ≤ (t.loaders ⟨r.group, n, r.worker⟩).status)
      (src : σ) (hsrc : SrcEq S t.dist.src src) :
      SmoothLives S G N W d0 (Train.start (saved.restore src)) (fun _ => none)
        (fun r => kept r ++ (t.loaders r).out.dropLast) mixes

theorem SmoothLives.lives {S : Source σ ι (Parcel K α)} {G N W : Nat} {d0 : Dist σ (Parcel K α)} {t : Train σ K α}
    {last : DReq → Option (Parcel K α)} {kept : DReq → List (Nat × α)} {mixes : List ι}
    (h : SmoothLives S G N W d0 t last kept mixes) : Lives S G N W d0 t last kept mixes := by
  induction h with
  | start => exact .start
  | events t last kept mixes _ es hv _ ih => exact .events t last kept mixes ih es hv
  | restart t last kept mixes _ ha status saved hs hgiven hstatus src hsrc ih =>
    refine .restart t last kept mixes ih ha status saved hs (fun r c hc => ?_) src hsrc
    obtain ⟨n, _, h1, h2⟩ := hstatus r c hc
    exact ⟨hgiven r c hc, _, h1, h2⟩

theorem answered_asked (S : Source σ ι (Parcel K α)) (os : List (DOp ι)) (d : Dist σ (Parcel K α)) (r : DReq)
    (a : Ans (Parcel K α)) (h : (r, a) ∈ (d.run S os).2) : DOp.ask r ∈ os := by
  induction os generalizing d with
  | nil => simp [Dist.run] at h
  | cons o os ih =>
    cases o with
    | poke i =>
      have e : (d.run S (.poke i :: os)).2 = ((d.op S (.poke i)).1.run S os).2 := by simp [Dist.run, Dist.op]
      rw [e] at h
      exact List.mem_cons_of_mem _ (ih _ h)
    | ask r0 =>
      have e : (d.run S (.ask r0 :: os)).2 =
          (r0, (d.nextChunkFor S r0).2) :: ((d.nextChunkFor S r0).1.run S os).2 := by
        simp [Dist.run, Dist.op]
      rw [e] at h
      rcases List.mem_cons.mp h with h | h
      · cases h; exact List.mem_cons_self
      · exact List.mem_cons_of_mem _ (ih _ h)

theorem received_asked (S : Source σ ι (Parcel K α)) (os : List (DOp ι)) (d : Dist σ (Parcel K α)) (r : DReq)
    (h : received (d.run S os).2 r ≠ []) : DOp.ask r ∈ os := by
  obtain ⟨c, hc⟩ := List.exists_mem_of_ne_nil _ h
  unfold received at hc
  obtain ⟨⟨r', a⟩, hm, hx⟩ := List.mem_filterMap.mp hc
  have hr : r' = r := by
    by_contra hr
    simp [hr] at hx
  exact answered_asked S os d r a (hr ▸ hm)

/-- Everything that some uninterrupted run hands to a loader is in what the loaders with its worker number in its group have
handed over or will hand over. -/
theorem SmoothLives.covered {S : Source σ ι (Parcel K α)} {G N workers : Nat} (hN : 0 < N) {src0 : σ}
    {d0 : Dist σ (Parcel K α)} (hd : Dist.init G N workers src0 = .ok d0) {t : Train σ K α}
    {last : DReq → Option (Parcel K α)} {kept : DReq → List (Nat × α)} {mixes : List ι}
    (h : SmoothLives S G N (effWorkers workers) d0 t last kept mixes) :
    ∀ later : List (DOp ι), (∀ o ∈ later, o.Valid G N (effWorkers workers)) →
      (∀ r e, (r, Ans.raised e) ∉ (t.dist.run S later).2) →
      ∃ os, (∀ o ∈ os, o.Valid G N (effWorkers workers)) ∧ pokes os = mixes ++ pokes later ∧
        (∀ r e, (r, Ans.raised e) ∉ (d0.run S os).2) ∧
        (∀ r, (r, Ans.stop) ∈ (t.dist.run S later).2 → (r, Ans.stop) ∈ (d0.run S os).2) ∧
        ∀ r : DReq, r.group < G → r.node < N → r.worker < effWorkers workers → (last r ≠ none ∨ DOp.ask r ∈ later) →
          ∀ x ∈ (received (d0.run S os).2 r).flatMap samplesOf,
            (∃ n < N, x ∈ kept ⟨r.group, n, r.worker⟩) ∨ x ∈ (t.loaders r).out ++ (t.loaders r).pending.map Prod.snd ∨
              x ∈ (received (t.dist.run S later).2 r).flatMap samplesOf := by
  induction h with
  | start =>
    intro later hl hno
    exact ⟨later, hl, rfl, hno, fun r hr => hr, fun r _ _ _ _ x hx => Or.inr (Or.inr hx)⟩
  | events t last kept mixes h es hv hfail ih =>
    intro later hl hno
    obtain ⟨ops, h1, h2, h3, -⟩ := run_dist S es t
    have hops : ∀ o ∈ ops, o.Valid G N (effWorkers workers) := valid_of_sublist hv h1
    have happ : (t.dist.run S (ops ++ later)).2 = (t.run S es).2 ++ ((t.run S es).1.dist.run S later).2 := by
      rw [dist_run_append, h3]
    obtain ⟨os, g1, g2, g3, g4, g5⟩ := ih (ops ++ later) (by
        intro o ho
        rcases List.mem_append.mp ho with ho | ho
        · exact hops o ho
        · exact hl o ho) (by
        intro r e hx
        rw [happ] at hx
        rcases List.mem_append.mp hx with hx | hx
        · exact hfail r e hx
        · exact hno r e hx)
    refine ⟨os, g1, by rw [g2, pokes_append, h2, List.append_assoc], g3, fun r hr => g4 r ?_, ?_⟩
    · rw [happ]; exact List.mem_append_right _ hr
    · intro r hg hn hw hasked x hx
      have hasked' : last r ≠ none ∨ DOp.ask r ∈ ops ++ later := by
        rcases hasked with hl' | hl'
        · by_cases hrec : received (t.run S es).2 r = []
          · left
            rwa [lastReceived, hrec, List.getLast?_nil, Option.none_or] at hl'
          · right
            have : received (t.dist.run S ops).2 r ≠ [] := by rw [h3]; exact hrec
            exact List.mem_append_left _ (received_asked S ops _ r this)
        · exact Or.inr (List.mem_append_right _ hl')
      rw [run_stream]
      rcases g5 r hg hn hw hasked' x hx with hx | hx | hx
      · exact Or.inl hx
      · exact Or.inr (Or.inl (List.mem_append_left _ hx))
      · rw [happ, received_append, List.flatMap_append] at hx
        rcases List.mem_append.mp hx with hx | hx
        · exact Or.inr (Or.inl (List.mem_append_right _ hx))
        · exact Or.inr (Or.inr hx)
  | restart t last kept mixes h ha status saved hs hgiven hstatus src hsrc ih =>
    intro later hl hno
    obtain ⟨hdist, hlink⟩ := (h.lives.reached hd).facts
    have h20 := c20_resume S Parcel.setSkip setSkip_setSkip G N (effWorkers workers) hN t.dist last hdist ha status saved hs
      src hsrc later hl
    obtain ⟨s0, hlife⟩ := reached_life S Parcel.setSkip setSkip_setSkip hN hdist
    have hal := aligned_pos hlife.rel ha
    obtain ⟨-, hlast⟩ := life_restore setSkip_setSkip hN hlife ha hs src
    obtain ⟨ops, h4, h5, h6, h7, h8, h9⟩ := resumed_received S later t.dist
      (fun r => (last r).map (Parcel.setSkip ((status r.group r.worker).getD 0)))
    have hst : (Train.start (saved.restore src) : Train σ K α).dist = saved.restore src := rfl
    rw [hst, h20] at hno ⊢
    obtain ⟨os, g1, g2, g3, g4, g5⟩ := ih ops (fun o ho => hl o (h4.subset ho)) (fun r e hx => hno r e (h8 _ hx))
    refine ⟨os, g1, by rw [g2, h5], g3, fun r hr => g4 r (h9 r hr), ?_⟩
    intro r hg hn hw hasked x hx
    have hasked : DOp.ask r ∈ later := hasked.resolve_left (by simp)
    have h6r := h6 r
    cases hlr : last r with
    | none =>
      simp only [hlr, Option.map_none] at h6r
      have hlk := hlink r
      rw [hlr] at hlk
      obtain ⟨k1, k2, -⟩ := hlk
      rcases g5 r hg hn hw (Or.inr (h7 r (by rw [hlr]; rfl) hasked)) x hx with ⟨n, hn', hx⟩ | hx | hx
      · exact Or.inl ⟨n, hn', List.mem_append_left _ hx⟩
      · rw [k1, k2] at hx; simp at hx
      · rw [h6r]; exact Or.inr (Or.inr hx)
    | some c =>
      obtain ⟨n', hn', hm, -⟩ := hstatus r c hlr
      simp only [hlr, Option.map_some, hm, Option.getD_some] at h6r
      have h6r := h6r.resolve_right fun hx => hx.1 hasked
      rcases g5 r hg hn hw (Or.inl (by rw [hlr]; simp)) x hx with ⟨n, hn'', hx⟩ | hx | hx
      · exact Or.inl ⟨n, hn'', List.mem_append_left _ hx⟩
      · -- what the loader had
        have hlk := hlink r
        rw [hlr] at hlk
        obtain ⟨handed, before, k1, k2, k3⟩ := hlk
        have hne : handed ≠ [] := by
          rintro rfl
          have := hgiven r c hlr
          rw [k1] at this; simp at this
        -- the loader that is ahead
        have hlead : last ⟨r.group, n', r.worker⟩ = some c := by
          have hr1 := hlast r.group r.node r.worker hg hn hw
          rcases hr1 with ⟨hr1, -⟩ | ⟨c1, _, e1, _, p1, _, q1⟩
          · have : last r = none := hr1
            rw [hlr] at this; cases this
          · have e1 : last r = some c1 := e1
            rw [hlr] at e1
            cases e1
            have hp : s0.pos r.group n' r.worker = s0.pos r.group r.node r.worker := by
              rw [hal _ _ _ hg hn' hw, hal _ _ _ hg hn hw]
            rcases hlast r.group n' r.worker hg hn' hw with ⟨-, hz⟩ | ⟨c2, _, e2, _, _, _, q2⟩
            · omega
            · rw [hp, q1] at q2
              cases q2
              exact e2
        have hlk' := hlink ⟨r.group, n', r.worker⟩
        rw [hlead] at hlk'
        obtain ⟨handed', before', k1', k2', k3'⟩ := hlk'
        have hne' : handed' ≠ [] := by
          rintro rfl
          have := hgiven _ c hlead
          rw [k1'] at this; simp at this
        obtain ⟨h', y, rfl⟩ : ∃ h' y, handed' = h' ++ [y] :=
          ⟨handed'.dropLast, handed'.getLast hne', (List.dropLast_append_getLast hne').symm⟩
        have hy : (t.loaders ⟨r.group, n', r.worker⟩).status = y.1 := k3' y (by simp)
        have hy2 : y.1 = c.skip + h'.length := read_index c h'.length y (by rw [k1']; simp)
        have hout' : (t.loaders ⟨r.group, n', r.worker⟩).out.dropLast = before' ++ h'.map Prod.snd := by
          rw [k2', List.map_append, ← List.append_assoc]
          simp
        obtain ⟨h'', z, rfl⟩ : ∃ h' y, handed = h' ++ [y] :=
          ⟨handed.dropLast, handed.getLast hne, (List.dropLast_append_getLast hne).symm⟩
        have hout : (t.loaders r).out.dropLast = before ++ h''.map Prod.snd := by
          rw [k2, List.map_append, ← List.append_assoc]
          simp
        have hx' : x ∈ before ∨ x ∈ c.read.map Prod.snd := by
          rw [k2, List.append_assoc] at hx
          rcases List.mem_append.mp hx with hx | hx
          · exact Or.inl hx
          · right
            rw [k1, List.map_append]
            exact hx
        rcases hx' with hx' | hx'
        · left
          refine ⟨r.node, hn, List.mem_append_right _ ?_⟩
          have : x ∈ (t.loaders r).out.dropLast := by rw [hout]; exact List.mem_append_left _ hx'
          exact this
        · rw [k1', List.append_assoc, List.map_append] at hx'
          rcases List.mem_append.mp hx' with hx' | hx'
          · left
            refine ⟨n', hn', List.mem_append_right _ ?_⟩
            rw [hout']
            exact List.mem_append_right _ hx'
          · right; right
            rw [h6r, List.flatMap_cons, ← read_samples, setSkip_read c _ (by omega), hy, hy2, k1']
            refine List.mem_append_left _ ?_
            have e1 : c.skip + h'.length - c.skip = h'.length := by omega
            rw [e1, List.append_assoc, List.drop_left]
            exact hx'
      · rw [h6r, List.flatMap_cons]
        exact Or.inr (Or.inr (List.mem_append_right _ hx))

end lives

/-- **C79** (nothing is left out, over restarts). With ArbitraryMixture and no mixture changes: for every history of the
loaders' actions with any number of interruptions, after each of which the job is continued from a checkpoint: if in the last
life every loader was told that the stream is over and has handed over all samples it received, and no request failed, then
every sample of the query result was handed over in some life - before the checkpoint from which the job was then continued, and
not as the very last sample before it - or in the last life.
Partial: the conditions of a restart, see `SmoothLives`; for the query result see `c79_restored_source_partial`. -/
theorem c79_restarts_complete_partial (ops : KeyOps K) (fuel : Nat) (index : Dict K Entries) (order : List K)
    (hi : IndexOk index order) (read : RChunk K → List (K × Pos))
    (hr : ∀ c, Deliverable ops index order c → ReadsOnce read c)
    (size : Nat) (hs : 0 < size) (stopOnNone : Bool) (groups nodes workers : Nat) (hgroups : 0 < groups) (hnodes : 0 < nodes)
    (d : Dist (Sess K) (Parcel K Pos))
    (hd : Dist.init groups nodes workers (Sess.fresh ops index order stopOnNone 0 (arbView size)) = .ok d)
    (t0 : Train (Sess K) K Pos) (last : DReq → Option (Parcel K Pos)) (kept : DReq → List (Nat × Pos))
    (h : SmoothLives (resultSource ops fuel read) groups nodes (effWorkers workers) d t0 last kept [])
    (es : List (TEv (MixOp K))) (he : ∀ e ∈ es, e.Valid groups nodes (effWorkers workers)) (hu : mixOps es = [])
    (t : Train (Sess K) K Pos) (as : List (DReq × Ans (Parcel K Pos)))
    (ht : t0.run (resultSource ops fuel read) es = (t, as))
    (hstop : ∀ r : DReq, r.group < groups → r.node < nodes → r.worker < effWorkers workers → (r, Ans.stop) ∈ as)
    (hno : ∀ r e, (r, Ans.raised e) ∉ as) (hend : ∀ r, (t.loaders r).pending = []) :
    ∀ p ∈ contentSamples index, ∃ r, p ∈ (kept r ++ (t.loaders r).out).map Prod.snd := by
  obtain ⟨later, h1, h2, h3, -⟩ := run_dist (resultSource ops fuel read) es t0
  rw [ht] at h3
  have hlater : ∀ o ∈ later, o.Valid groups nodes (effWorkers workers) := valid_of_sublist he h1
  have hW : 0 < effWorkers workers := by unfold effWorkers; split <;> omega
  obtain ⟨os, g1, g2, g3, g4, g5⟩ := h.covered hnodes hd later hlater (by rw [h3]; exact hno)
  rw [h3] at g4 g5
  have hpk : pokes os = [] := by rw [g2, h2, pokes_requests, hu]; rfl
  intro p hp
  obtain ⟨r, hg, hn, hw, hin⟩ := dist_complete ops fuel hi read hr hs hd g1 hpk
    ⟨⟨0, 0, 0⟩, g4 _ (hstop _ hgroups hnodes hW)⟩ g3 p hp
  obtain ⟨x, hx, rfl⟩ := List.mem_map.mp hin
  have hasked : DOp.ask r ∈ later := answered_asked (resultSource ops fuel read) later t0.dist r .stop (by
    rw [h3]; exact hstop r hg hn hw)
  have hst := run_stream (resultSource ops fuel read) es t0 r
  rw [ht] at hst
  simp only [hend r, List.map_nil, List.append_nil] at hst
  rcases g5 r hg hn hw (Or.inr hasked) x hx with ⟨n, _, hx⟩ | hx | hx
  · exact ⟨⟨r.group, n, r.worker⟩, List.mem_map_of_mem (List.mem_append_left _ hx)⟩
  · exact ⟨r, List.mem_map_of_mem (List.mem_append_right _ (by rw [hst]; exact List.mem_append_left _ hx))⟩
  · exact ⟨r, List.mem_map_of_mem (List.mem_append_right _ (by rw [hst]; exact List.mem_append_right _ hx))⟩

/-! ## Example -/

namespace Ex

/-- Both loaders read to the end. -/
def finishing : List (TEv (MixOp Nat)) :=
  (List.replicate 4 ([.ask l0] ++ List.replicate 4 (.give l0) ++ [.ask l1] ++ List.replicate 4 (.give l1))).flatten

/-- The kind of an answer. -/
def kind : Ans (Parcel Nat Pos) → Nat
  | .chunk _ => 0
  | .stop => 1
  | .raised _ => 2

/-- Non-vacuity: a job with an interruption that is continued to the end meets the hypotheses of
`c79_restarts_complete_partial`. -/
example : ∃ t0 last kept, SmoothLives resSrc 1 1 (effWorkers 2) job t0 last kept [] ∧
    (∀ r : DReq, r.group < 1 → r.node < 1 → r.worker < effWorkers 2 → (r, Ans.stop) ∈ (t0.run resSrc finishing).2) ∧
    (∀ r e, (r, Ans.raised e) ∉ (t0.run resSrc finishing).2) ∧ (∀ r, ((t0.run resSrc finishing).1.loaders r).pending = []) ∧
    [l0, l1].map (fun r => (kept r ++ ((t0.run resSrc finishing).1.loaders r).out).map Prod.snd) =
      [[(0, 0, 0), (0, 0, 1), (0, 0, 2), (0, 0, 5), (0, 1, 0), (0, 1, 1), (0, 1, 2), (0, 1, 3), (0, 1, 4), (0, 1, 5),
        (0, 1, 6), (0, 1, 7)], [(0, 0, 3), (0, 0, 4), (0, 0, 6), (0, 1, 8), (0, 1, 9)]] := by
  have hlife : SmoothLives resSrc 1 1 (effWorkers 2) job before _ _ _ :=
    .events _ _ _ _ .start [.ask l0, .give l0, .give l0, .ask l1, .give l1, .give l1] (by
      intro e he; fin_cases he <;> first | trivial | exact ⟨by decide, by decide, by decide⟩) (by
      intro r e hx
      have h1 : ((Train.start job).run resSrc [.ask l0, .give l0, .give l0, .ask l1, .give l1, .give l1]).2.map
        (fun x => kind x.2) = [0, 0] := by decide +kernel
      have h2 := List.mem_map_of_mem (f := fun x => kind x.2) hx
      rw [h1] at h2
      simp [kind] at h2)
  obtain ⟨r, hr, hsrc⟩ := before_source
  obtain ⟨saved, hsaved⟩ : ∃ saved, before.dist.persist Parcel.setSkip (maxStatus (reports before 1 1)) = .ok saved := ⟨_, rfl⟩
  have h2 := SmoothLives.restart before _ _ _ hlife (by decide +kernel) _ saved hsaved
    (fun q c hc => (before_given q c hc).2.1) (fun q c hc => by
      obtain ⟨hq, -, m, h1, h2⟩ := before_given q c hc
      refine ⟨0, by decide, ?_⟩
      have : (⟨q.group, 0, q.worker⟩ : DReq) = q := by rcases hq with rfl | rfl <;> rfl
      rw [this, h1, h2]
      exact ⟨rfl, le_refl _⟩) r hsrc
  have e1 : again before = some (Train.start (saved.restore r)) := by
    unfold again
    rw [hsaved, hr]
    exact if_pos (by decide +kernel)
  have hk : (again before).map (fun t => (t.run resSrc finishing).2.map fun x => (x.1, kind x.2)) =
      some [(l0, 0), (l1, 0), (l0, 0), (l1, 0), (l0, 0), (l1, 0), (l0, 1), (l1, 1)] := by decide +kernel
  rw [e1, Option.map_some, Option.some.injEq] at hk
  refine ⟨_, _, _, h2, ?_, ?_, ?_, ?_⟩
  · intro q hg hn hw
    have hq : q = l0 ∨ q = l1 := by
      obtain ⟨g, n, w⟩ := q
      simp only [show effWorkers 2 = 2 from rfl] at hg hn hw
      obtain rfl : g = 0 := by omega
      obtain rfl : n = 0 := by omega
      rcases (show w = 0 ∨ w = 1 by omega) with rfl | rfl
      · exact Or.inl rfl
      · exact Or.inr rfl
    have hx : (q, 1) ∈ ((Train.start (saved.restore r)).run resSrc finishing).2.map fun x => (x.1, kind x.2) := by
      rw [hk]; rcases hq with rfl | rfl <;> simp
    obtain ⟨⟨q', a⟩, hm, hy⟩ := List.mem_map.mp hx
    cases a with
    | stop => cases hy; exact hm
    | chunk c => simp [kind] at hy
    | raised e => simp [kind] at hy
  · intro q e hx
    have := List.mem_map_of_mem (f := fun x => (x.1, kind x.2)) hx
    rw [hk] at this
    simp [kind] at this
  · intro q
    have hp : (again before).map (fun t => [l0, l1].map fun q => ((t.run resSrc finishing).1.loaders q).pending.length) =
      some [0, 0] := by decide +kernel
    rw [e1, Option.map_some, Option.some.injEq] at hp
    simp only [List.map_cons, List.map_nil, List.cons.injEq, and_true] at hp
    by_cases h0 : q = l0
    · subst h0; exact List.length_eq_zero_iff.mp hp.1
    · by_cases h1 : q = l1
      · subst h1; exact List.length_eq_zero_iff.mp hp.2
      · have hrec := received_other (as := ((Train.start (saved.restore r)).run resSrc finishing).2) (by
          intro x hx
          have : ((Train.start (saved.restore r)).run resSrc finishing).2.map Prod.fst =
            (((Train.start (saved.restore r)).run resSrc finishing).2.map fun x => (x.1, kind x.2)).map Prod.fst := by
              rw [List.map_map]; rfl
          rw [this, hk] at hx
          simp only [List.map_cons, List.map_nil, List.mem_cons, List.not_mem_nil, or_false] at hx
          rcases hx with h | h | h | h | h | h | h | h <;> first | exact Or.inl h | exact Or.inr h) h0 h1
        have hst := run_stream resSrc finishing (Train.start (saved.restore r)) q
        rw [hrec] at hst
        have : ((Train.start (saved.restore r)).loaders q).pending = ([] : List (Nat × Nat × Pos)) ∧
          ((Train.start (saved.restore r)).loaders q).out = ([] : List (Nat × Pos)) := ⟨rfl, rfl⟩
        rw [this.1, this.2] at hst
        simp at hst
        exact hst.2
  · have ho : (again before).map (fun t => [l0, l1].map fun q =>
        (((before.loaders q).out.dropLast) ++ ((t.run resSrc finishing).1.loaders q).out).map Prod.snd) =
      some [[(0, 0, 0), (0, 0, 1), (0, 0, 2), (0, 0, 5), (0, 1, 0), (0, 1, 1), (0, 1, 2), (0, 1, 3), (0, 1, 4), (0, 1, 5),
        (0, 1, 6), (0, 1, 7)], [(0, 0, 3), (0, 0, 4), (0, 0, 6), (0, 1, 8), (0, 1, 9)]] := by decide +kernel
    rw [e1, Option.map_some, Option.some.injEq] at ho
    exact ho

end Ex

end Mixtera.Torch
