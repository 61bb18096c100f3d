import Verif.Props.Training

/-!
# Nothing looks at the samples (for C83)

Reading a chunk, the distributor and the loaders order samples without looking at them: with other samples in the same places
they do the same with those.
-/

set_option linter.unusedSectionVars false

namespace Mixtera.Torch

variable {K α β σ ι : Type} [DecidableEq K]

/-! ## Reading does not look at the samples -/

/-- Apply `f` to the samples of a list of keys and samples. -/
abbrev onSnd (f : α → β) (l : List (K × α)) : List (K × β) := l.map fun x => (x.1, f x.2)

def mapRead (f : α → β) (s : ReadState K α) : ReadState K β := ⟨fun k => (s.it k).map f, s.deleted, onSnd f s.out⟩

theorem advance_map (f : α → β) (it : K → List α) (k : K) :
    advance (fun k => (it k).map f) k = fun k' => (advance it k k').map f := by
  funext k'
  unfold advance
  split <;> simp

theorem overallStep_map (f : α → β) (s : ReadState K α) (n : K) : overallStep (mapRead f s) n = mapRead f (overallStep s n) := by
  unfold overallStep
  by_cases h : n ∈ s.deleted
  · rw [if_pos h, if_pos (show n ∈ (mapRead f s).deleted from h)]
  · rw [if_neg h, if_neg (show n ∉ (mapRead f s).deleted from h)]
    cases hs : s.it n with
    | nil => simp [mapRead, hs]
    | cons x xs => simp [mapRead, hs, advance_map, onSnd]

theorem overallFold_map (f : α → β) : ∀ (l : List K) (s : ReadState K α),
    l.foldl overallStep (mapRead f s) = mapRead f (l.foldl overallStep s)
  | [], _ => rfl
  | n :: l, s => by simp only [List.foldl_cons, overallStep_map]; exact overallFold_map f l _

theorem overallLoop_map (f : α → β) (names : List K) : ∀ (fuel : Nat) (s : ReadState K α),
    overallLoop names fuel (mapRead f s) = (overallLoop names fuel s).map (mapRead f)
  | 0, s => by
    simp only [overallLoop]; rw [apply_ite (Option.map (mapRead f))]; rfl
  | fuel + 1, s => by
    simp only [overallLoop]
    have : (mapRead f s).deleted = s.deleted := rfl
    rw [this, overallFold_map, overallLoop_map f names fuel, apply_ite (Option.map (mapRead f))]
    rfl

theorem iterateOverall_map (f : α → β) (names : List K) (it : K → List α) (fuel : Nat) :
    iterateOverall names (fun k => (it k).map f) fuel = (iterateOverall names it fuel).map (onSnd f) := by
  unfold iterateOverall
  have := overallLoop_map f names fuel (⟨it, [], []⟩ : ReadState K α)
  simp only [mapRead, onSnd, List.map_nil] at this
  rw [this]
  simp only [Option.map_map]
  rfl

def mapWin (f : α → β) (s : WinState K α) : WinState K β :=
  ⟨fun k => (s.it k).map f, s.deleted, s.proc, s.yielded, s.stop, onSnd f s.out⟩

theorem give_map (f : α → β) (s : WinState K α) (k : K) (x : α) : (mapWin f s).give k (f x) = mapWin f (s.give k x) := by
  simp [WinState.give, mapWin, advance_map, onSnd]

theorem winFor_map (f : α → β) (W : Nat) : ∀ (cs : List (K × Int)) (s : WinState K α) (b : Bool),
    winFor W cs (mapWin f s) b = (mapWin f (winFor W cs s b).1, (winFor W cs s b).2)
  | [], _, _ => rfl
  | (k, c) :: cs, s, b => by
    unfold winFor
    by_cases h : k ∈ s.deleted ∨ c ≤ (s.proc k : Int)
    · rw [if_pos h, if_pos (show k ∈ (mapWin f s).deleted ∨ c ≤ ((mapWin f s).proc k : Int) from h)]
      exact winFor_map f W cs s b
    · rw [if_neg h, if_neg (show ¬ (k ∈ (mapWin f s).deleted ∨ c ≤ ((mapWin f s).proc k : Int)) from h)]
      have hm : (mapWin f s).it k = (s.it k).map f := rfl
      cases hs : s.it k with
      | nil =>
        simp only [hm, hs, List.map_nil]
        exact winFor_map f W cs { s with deleted := s.deleted ++ [k], stop := true } b
      | cons x xs =>
        simp only [hm, hs, List.map_cons, give_map]
        have hy : (mapWin f s).yielded = s.yielded := rfl
        rw [hy]
        split
        · rfl
        · exact winFor_map f W cs _ _

theorem winLoop_map (f : α → β) (W : Nat) (cs : List (K × Int)) : ∀ (fuel : Nat) (s : WinState K α),
    winLoop W cs fuel (mapWin f s) = (winLoop W cs fuel s).map (mapWin f)
  | 0, s => by
    simp only [winLoop]; rw [apply_ite (Option.map (mapWin f))]; rfl
  | fuel + 1, s => by
    simp only [winLoop, winFor_map]
    have h1 : (mapWin f s).deleted = s.deleted := rfl
    have h2 : (mapWin f s).yielded = s.yielded := rfl
    rw [h1, h2, winLoop_map f W cs fuel, apply_ite (Option.map (mapWin f)), apply_ite (Option.map (mapWin f))]
    rfl

theorem windowsLoop_map (f : α → β) (W : Nat) (be : Bool) (cs : List (K × Int)) : ∀ (fuel : Nat) (s : WinState K α),
    windowsLoop W be cs fuel (mapWin f s) = (windowsLoop W be cs fuel s).map (mapWin f)
  | 0, s => by
    simp only [windowsLoop]; rw [apply_ite (Option.map (mapWin f))]; rfl
  | fuel + 1, s => by
    simp only [windowsLoop]
    have h1 : (mapWin f s).deleted = s.deleted := rfl
    have h2 : (mapWin f s).stop = s.stop := rfl
    have h3 := winLoop_map f W cs (W + 1) { s with
      proc := fun _ => 0
      yielded := 0 }
    simp only [mapWin] at h3
    simp only [h1, h2]
    simp only [mapWin]
    rw [h3, apply_ite (Option.map (mapWin f))]
    congr 1
    cases winLoop W cs (W + 1) { s with proc := fun _ => 0, yielded := 0 } with
      | none => rfl
      | some u => exact windowsLoop_map f W be cs fuel u

theorem iterateWindows_map (f : α → β) (W : Nat) (be : Bool) (cs : List (K × Int)) (it : K → List α) (fuel : Nat) :
    iterateWindows W be cs (fun k => (it k).map f) fuel = (iterateWindows W be cs it fuel).map (onSnd f) := by
  unfold iterateWindows
  have := windowsLoop_map f W be cs fuel (⟨it, [], fun _ => 0, 0, false, []⟩ : WinState K α)
  simp only [mapWin, onSnd, List.map_nil] at this
  rw [this]
  simp only [Option.map_map]
  rfl

/-- Reading a chunk orders the samples without looking at them. -/
theorem iterateChunk_map (f : α → β) (mixKeys : List K → List K) (mixCounts : List (K × Int) → List (K × Int))
    (cfg : Configured K) (c : RChunk K) (it : K → List α) (fuel : Nat) :
    iterateChunk mixKeys mixCounts cfg c (fun k => (it k).map f) fuel =
      (iterateChunk mixKeys mixCounts cfg c it fuel).map (onSnd f) := by
  unfold iterateChunk
  simp only [iterateWindows_map, iterateOverall_map]
  split
  · split
    · rfl
    · split
      · cases iterateWindows cfg.window.toNat cfg.bestEffort _ it fuel <;> rfl
      · rfl
  · cases iterateOverall (mixKeys c.content.keys) it fuel <;> rfl

/-! ## The distributor and the loaders do not look at the samples -/

def mapParcel (f : α → β) (p : Parcel K α) : Parcel K β := ⟨onSnd f p.source, p.keyId, p.mixtureId, p.skip⟩

def mapAns {C C' : Type} (f : C → C') : Ans C → Ans C'
  | .chunk c => .chunk (f c)
  | .stop => .stop
  | .raised e => .raised e

def mapFetch {C C' : Type} (f : C → C') : Fetch C → Fetch C'
  | .chunk c => .chunk (f c)
  | .stop => .stop
  | .raised e => .raised e

def mapDist {C C' : Type} (f : C → C') (d : Dist σ C) : Dist σ C' :=
  ⟨d.groups, d.nodes, d.workers, d.src, fun g => (d.cache g).map fun x => (x.1, f x.2), d.usage, d.next⟩

def mapTrain (f : α → β) (t : Train σ K α) : Train σ K β :=
  ⟨mapDist (mapParcel f) t.dist, fun r => ⟨(t.loaders r).pending.map fun x => (x.1, x.2.1, f x.2.2), (t.loaders r).status,
    (t.loaders r).ended, (t.loaders r).out.map fun x => (x.1, f x.2)⟩, t.current⟩

section
variable {C C' : Type} (f : C → C')

theorem dictMap_get? (d : Dict Nat C) (k : Nat) :
    Dict.get? (d.map fun x => (x.1, f x.2) : Dict Nat C') k = (Dict.get? d k).map f := by
  induction d with
  | nil => rfl
  | cons x d ih =>
    simp only [List.map_cons, Dict.get?]
    split
    · rfl
    · exact ih

theorem dictMap_has (d : Dict Nat C) (k : Nat) : Dict.has (d.map fun x => (x.1, f x.2) : Dict Nat C') k = Dict.has d k := by
  simp only [Dict.has, dictMap_get?]; cases Dict.get? d k <;> rfl

theorem dictMap_set (d : Dict Nat C) (k : Nat) (c : C) :
    Dict.set (d.map fun x => (x.1, f x.2) : Dict Nat C') k (f c) = (Dict.set d k c).map fun x => (x.1, f x.2) := by
  induction d with
  | nil => rfl
  | cons x d ih =>
    obtain ⟨a, b⟩ := x
    simp only [Dict.set] at ih
    simp only [List.map_cons, Dict.set, Dict.upsert]
    split
    · rfl
    · simp only [List.map_cons, ih]

theorem dictMap_pop (d : Dict Nat C) (k : Nat) :
    Dict.pop (d.map fun x => (x.1, f x.2) : Dict Nat C') k = (Dict.pop d k).map fun x => (x.1, f x.2) := by
  induction d with
  | nil => rfl
  | cons x d ih =>
    obtain ⟨a, b⟩ := x
    simp only [List.map_cons, Dict.pop]
    split
    · rfl
    · simp only [List.map_cons, ih]

theorem deliver_map (d : Dist σ C) (r : DReq) (id : Nat) (c : C) :
    (mapDist f d).deliver r id (f c) = (mapDist f (d.deliver r id c).1, mapAns f (d.deliver r id c).2) := by
  unfold Dist.deliver
  have hu : (mapDist f d).usage = d.usage := rfl
  rw [hu]
  cases hg : (d.usage r.group).get? id with
  | none => rfl
  | some u =>
    simp only
    have hc : Dict.has ((mapDist f d).cache r.group) (id - d.workers) = Dict.has (d.cache r.group) (id - d.workers) :=
      dictMap_has f _ _
    have hp : Dict.pop ((mapDist f d).cache r.group) (id - d.workers) =
        (Dict.pop (d.cache r.group) (id - d.workers)).map fun x => (x.1, f x.2) := dictMap_pop f _ _
    have hw : (mapDist f d).workers = d.workers := rfl
    have hn : (mapDist f d).nodes = d.nodes := rfl
    simp only [hw, hn, hc, hp]
    split
    · split
      · simp only [mapDist, mapAns, Prod.mk.injEq, Dist.mk.injEq, true_and, and_true]
        funext g
        split <;> rfl
      · simp only [mapDist, mapAns, Prod.mk.injEq, Dist.mk.injEq, true_and, and_true]
        funext g
        split <;> rfl
    · rfl

/-- Taking a chunk, if the source hands over the image of the other source's chunk. -/
theorem nextChunkFor_map (S : Source σ ι C) (S' : Source σ ι C') (d : Dist σ C) (r : DReq)
    (h : S'.fetch d.src = ((S.fetch d.src).1, mapFetch f (S.fetch d.src).2)) :
    (mapDist f d).nextChunkFor S' r = (mapDist f (d.nextChunkFor S r).1, mapAns f (d.nextChunkFor S r).2) := by
  unfold Dist.nextChunkFor
  have e1 : (mapDist f d).groups = d.groups := rfl
  have e2 : (mapDist f d).nodes = d.nodes := rfl
  have e3 : (mapDist f d).workers = d.workers := rfl
  have e4 : (mapDist f d).next = d.next := rfl
  have e5 : (mapDist f d).src = d.src := rfl
  have e6 : ∀ k, Dict.get? ((mapDist f d).cache r.group) k = (Dict.get? (d.cache r.group) k).map f := fun k => dictMap_get? f _ _
  rw [e1, e2, e3, e4, e5, h]
  split
  · simp only [e6]
    cases Dict.get? (d.cache r.group) (d.next r.group r.node r.worker) with
    | some c => exact deliver_map f d r _ c
    | none =>
      simp only [Option.map_none]
      rcases hf : S.fetch d.src with ⟨s, x⟩
      cases x with
      | chunk c =>
        simp only [mapFetch]
        rw [← deliver_map]
        congr 1
        simp only [mapDist, Dist.mk.injEq, true_and, and_true]
        funext g
        split
        · exact dictMap_set f _ _ _
        · rfl
      | stop => rfl
      | raised e => rfl
  · rfl

end

/-- The answers with mapped chunks. -/
abbrev mapAnswers (f : α → β) (as : List (DReq × Ans (Parcel K α))) : List (DReq × Ans (Parcel K β)) :=
  as.map fun x => (x.1, mapAns (mapParcel f) x.2)

theorem parcelRead_map (f : α → β) (p : Parcel K α) : (mapParcel f p).read = p.read.map fun x => (x.1, x.2.1, f x.2.2) := by
  unfold Parcel.read iterateSamples mapParcel onSnd
  simp only [← List.map_drop, List.zipIdx_map, List.map_map]
  rfl

theorem nextChunkFor_src {C : Type} (S : Source σ ι C) (d : Dist σ C) (r : DReq) :
    (d.nextChunkFor S r).1.src = d.src ∨ (d.nextChunkFor S r).1.src = (S.fetch d.src).1 :=
  (ask_src S d r).imp And.left And.left

theorem answer_map (f : α → β) (t : Train σ K α) (r : DReq) (a : Ans (Parcel K α)) :
    (mapTrain f t).answer r (mapAns (mapParcel f) a) = mapTrain f (t.answer r a) := by
  cases a with
  | chunk c =>
    simp only [mapAns, Train.answer, Train.setLoader, Train.setCurrent, parcelRead_map, mapTrain, Train.mk.injEq, true_and]
    refine ⟨?_, rfl⟩
    funext r'
    split <;> rfl
  | stop =>
    simp only [mapAns, Train.answer, Train.setLoader, Train.setCurrent, mapTrain, Train.mk.injEq, true_and, and_true]
    funext r'
    split <;> rfl
  | raised e =>
    simp only [mapAns, Train.answer, Train.setLoader, mapTrain, Train.mk.injEq, true_and, and_true]
    funext r'
    split <;> rfl

/-- Two sources that behave the same, except for the samples in the chunks: so do the runs. `J` holds of the states of the source
that occur (with the operations that are still to come). -/
theorem run_map (f : α → β) (S : Source σ (MixOp K) (Parcel K α)) (S' : Source σ (MixOp K) (Parcel K β))
    (J : σ → List (MixOp K) → Prop) (hpoke : ∀ s i l, J s (i :: l) → S'.poke i s = S.poke i s ∧ J (S.poke i s) l)
    (hfetch : ∀ s l, J s l → J (S.fetch s).1 l ∧ S'.fetch s = ((S.fetch s).1, mapFetch (mapParcel f) (S.fetch s).2)) :
    ∀ (es : List (TEv (MixOp K))) (t : Train σ K α), J t.dist.src (mixOps es) →
      (mapTrain f t).run S' es = (mapTrain f (t.run S es).1, mapAnswers f (t.run S es).2)
  | [], t, _ => rfl
  | e :: es, t, hJ => by
    have key : (mapTrain f t).step S' e = (mapTrain f (t.step S e).1, mapAnswers f (t.step S e).2) ∧
        J (t.step S e).1.dist.src (mixOps es) := by
      cases e with
      | ask r =>
        have hJ' : J t.dist.src (mixOps es) := hJ
        obtain ⟨h1, h2⟩ := hfetch _ _ hJ'
        have e1 : ((mapTrain f t).loaders r).pending.isEmpty = (t.loaders r).pending.isEmpty := by
          simp only [mapTrain]; cases (t.loaders r).pending <;> rfl
        have e2 : ((mapTrain f t).loaders r).ended = (t.loaders r).ended := rfl
        simp only [Train.step, e1, e2]
        split
        · have h3 := nextChunkFor_map (mapParcel f) S S' t.dist r h2
          have h4 : (mapTrain f t).dist = mapDist (mapParcel f) t.dist := rfl
          constructor
          · rw [h4, h3]
            simp only
            have h5 : ({ mapTrain f t with dist := mapDist (mapParcel f) (t.dist.nextChunkFor S r).1 } : Train σ K β) =
              mapTrain f { t with dist := (t.dist.nextChunkFor S r).1 } := rfl
            rw [h5, answer_map]
            rfl
          · have h6 : (({ t with dist := (t.dist.nextChunkFor S r).1 } : Train σ K α).answer r (t.dist.nextChunkFor S r).2).dist.src
                = (t.dist.nextChunkFor S r).1.src := by
              cases (t.dist.nextChunkFor S r).2 <;> rfl
            rw [h6]
            rcases nextChunkFor_src S t.dist r with h | h
            · rw [h]; exact hJ'
            · rw [h]; exact h1
        · exact ⟨rfl, hJ'⟩
      | give r =>
        have e1 : ((mapTrain f t).loaders r).pending = (t.loaders r).pending.map fun x => (x.1, x.2.1, f x.2.2) := rfl
        simp only [Train.step, e1]
        cases (t.loaders r).pending with
        | nil => exact ⟨rfl, hJ⟩
        | cons x xs =>
          refine ⟨?_, hJ⟩
          simp only [List.map_cons, Train.setLoader, mapTrain, Prod.mk.injEq, Train.mk.injEq, true_and, and_true, List.map_nil]
          funext r'
          split
          · simp
          · rfl
      | poke i =>
        obtain ⟨h1, h2⟩ := hpoke _ _ _ hJ
        refine ⟨?_, h2⟩
        simp only [Train.step]
        have : (mapTrain f t).dist.src = t.dist.src := rfl
        rw [this, h1]
        rfl
    obtain ⟨h1, h2⟩ := key
    simp only [Train.run, h1]
    rw [run_map f S S' J hpoke hfetch es _ h2]
    simp [mapAnswers]

end Mixtera.Torch
