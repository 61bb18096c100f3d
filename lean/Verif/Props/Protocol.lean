import Verif.Model.Protocol
import Verif.Props.Network

/-!
# C60: client and server understand each other

`Request.received` is the specification: what the server must get for a request. The theorems say that it gets exactly
that when the request arrives, that a request that is cut off is never taken for a complete one, and that the client gets
the handler's reply or nothing.
-/

set_option linter.unusedSectionVars false

namespace Mixtera.Net

variable {α β : Type} {T O F A : Type}

/-! ## Writing and reading in steps -/

/-- `a` is written and `p` reads it back as `x`; a part of it is read as something without the property `P`, if at all. -/
structure Good (a : Except NetErr (List Byte)) (p : Reader α) (x : α) (P : α → Prop) : Prop where
  ok : ∃ w, a = .ok w
  rt : ∀ w, a = .ok w → ∀ rest s, Delivers s (w ++ rest) → Reads p s x rest
  full : ∀ w, a = .ok w → ∀ rest (s : Stream), s.data = w ++ rest →
    (∃ e, (p s).1 = .error e) ∨ ((p s).1 = .ok x ∧ (p s).2.data = rest)
  cut : ∀ w, a = .ok w → ∀ k < w.length, ∀ s : Stream, s.data = w.take k → ∀ y, (p s).1 = .ok y → ¬ P y

theorem Good.ofPlain {a : Except NetErr (List Byte)} {p : Reader α} {q : Plain α} {x : α} {P : α → Prop} (h : Refines p q)
    {w : List Byte} (ha : a = .ok w) (hfull : ∀ rest, q (w ++ rest) = (.ok x, rest))
    (hcut : ∀ k < w.length, ∀ y, (q (w.take k)).1 = .ok y → ¬ P y) : Good a p x P := by
  refine ⟨⟨w, ha⟩, ?_, ?_, ?_⟩
  · intro w' h' rest s hs
    rw [ha] at h'; injection h' with h'; subst h'
    exact h.reads hs (hfull rest)
  · intro w' h' rest s hs
    rw [ha] at h'; injection h' with h'; subst h'
    rcases h.timeout s with h1 | ⟨h1, h2⟩
    · exact Or.inl ⟨_, h1⟩
    · rw [hs, hfull] at h1 h2
      exact Or.inr ⟨h1, h2⟩
  · intro w' h' k hk s hs y hy
    rw [ha] at h'; injection h' with h'; subst h'
    rcases h.timeout s with h1 | ⟨h1, _⟩
    · rw [h1] at hy; cases hy
    · rw [hs, hy] at h1
      exact hcut k hk y h1.symm

theorem Good.weaken {a : Except NetErr (List Byte)} {p : Reader α} {x : α} {P Q : α → Prop} (h : Good a p x P)
    (hPQ : ∀ y, Q y → P y) : Good a p x Q :=
  ⟨h.ok, h.rt, h.full, fun w hw k hk s hs y hy hq => h.cut w hw k hk s hs y hy (hPQ y hq)⟩

/-- No result of the reader has the property. -/
def Never (p : Reader α) (P : α → Prop) : Prop := ∀ s y, (p s).1 = .ok y → ¬ P y

theorem Never.pure {x : α} {P : α → Prop} (h : ¬ P x) : Never (Reader.pure x) P := by
  intro s y hy
  simp only [Reader.pure] at hy
  injection hy with hy
  subst hy
  exact h

theorem Never.raise {e : NetErr} {P : α → Prop} : Never (Reader.raise e : Reader α) P := by
  intro s y hy
  simp only [Reader.raise] at hy
  cases hy

theorem Never.bind {p : Reader α} {f : α → Reader β} {P : β → Prop} (h : ∀ x, Never (f x) P) : Never (Reader.bind p f) P := by
  intro s y hy
  unfold Reader.bind at hy
  rcases hp : p s with ⟨r, s'⟩
  rw [hp] at hy
  cases r with
  | ok x => exact h x s' y hy
  | error e => cases hy

theorem Never.bind_raise {e : NetErr} {f : α → Reader β} {P : β → Prop} :
    Never (Reader.bind (Reader.raise e : Reader α) f) P := by
  intro s y hy
  simp only [Reader.bind, Reader.raise] at hy
  cases hy

theorem wThen_ok {a b : Except NetErr (List Byte)} {w : List Byte} (h : a +> b = .ok w) :
    ∃ x y, a = .ok x ∧ b = .ok y ∧ w = x ++ y := by
  unfold wThen at h
  split at h
  · injection h with h; exact ⟨_, _, rfl, rfl, h.symm⟩
  · cases h
  · cases h

theorem Good.seq {a b : Except NetErr (List Byte)} {p : Reader α} {f : α → Reader β} {x : α} {y : β} {P : α → Prop}
    {Q : β → Prop} (ha : Good a p x P) (hb : Good b (f x) y Q) (hn : ∀ z, ¬ P z → Never (f z) Q) :
    Good (a +> b) (Reader.bind p f) y Q := by
  refine ⟨?_, ?_, ?_, ?_⟩
  · obtain ⟨wa, e1⟩ := ha.ok
    obtain ⟨wb, e2⟩ := hb.ok
    exact ⟨wa ++ wb, by rw [e1, e2]; rfl⟩
  · intro w hw rest s hs
    obtain ⟨wa, wb, e1, e2, rfl⟩ := wThen_ok hw
    rw [List.append_assoc] at hs
    exact (ha.rt wa e1 _ s hs).bind fun s' h' => hb.rt wb e2 rest s' h'
  · intro w hw rest s hs
    obtain ⟨wa, wb, e1, e2, rfl⟩ := wThen_ok hw
    rw [List.append_assoc] at hs
    unfold Reader.bind
    rcases ha.full wa e1 _ s hs with ⟨e, h1⟩ | ⟨h1, h2⟩
    · rcases hp : p s with ⟨r, s'⟩
      rw [hp] at h1
      simp only at h1
      subst h1
      exact Or.inl ⟨e, rfl⟩
    · rcases hp : p s with ⟨r, s'⟩
      rw [hp] at h1 h2
      simp only at h1 h2
      subst h1
      exact hb.full wb e2 rest s' h2
  · intro w hw k hk s hs z hz
    obtain ⟨wa, wb, e1, e2, rfl⟩ := wThen_ok hw
    by_cases hka : k < wa.length
    · rw [List.take_append_of_le_length (by omega)] at hs
      unfold Reader.bind at hz
      rcases hp : p s with ⟨r, s'⟩
      rw [hp] at hz
      cases r with
      | error e => cases hz
      | ok v =>
        have := ha.cut wa e1 k hka s hs v (by rw [hp])
        exact hn v this s' z hz
    · have e3 : (wa ++ wb).take k = wa ++ wb.take (k - wa.length) := by
        rw [List.take_append, List.take_of_length_le (by omega)]
      rw [e3] at hs
      unfold Reader.bind at hz
      rcases hp : p s with ⟨r, s'⟩
      rw [hp] at hz
      cases r with
      | error e => cases hz
      | ok v =>
        rcases ha.full wa e1 _ s hs with ⟨e, h1⟩ | ⟨h1, h2⟩
        · rw [hp] at h1; cases h1
        · rw [hp] at h1 h2
          injection h1 with h1
          subst h1
          simp only [List.length_append] at hk
          exact hb.cut wb e2 (k - wa.length) (by omega) s' h2 z hz

theorem Good.pure (x : α) (P : α → Prop) : Good wNil (Reader.pure x) x P := by
  refine ⟨⟨_, rfl⟩, ?_, ?_, ?_⟩
  · intro w hw rest s hs
    injection hw with hw; subst hw
    exact reads_pure x hs
  · intro w hw rest s hs
    injection hw with hw; subst hw
    exact Or.inr ⟨rfl, hs⟩
  · intro w hw k hk
    injection hw with hw; subst hw
    simp at hk

/-! ## The helpers -/

/-- An integer that fits into an identifier field. -/
def FitsInt (x : Int) : Prop := -(256 ^ idBytes : Int) ≤ 2 * x ∧ 2 * x < 256 ^ idBytes

/-- A value whose encoding fits behind a header of `n` bytes. -/
def FitsCoded (c : Codec α) (n : Nat) (x : α) : Prop := 2 * (c.encode x).length < 256 ^ n

theorem plainInt_cut (n : Nat) (d : List Byte) (y : Option Int) (hy : (plainInt n d).1 = .ok y) (h : d.length < n) :
    y = none := by
  by_cases h0 : d = []
  · subst h0
    have : n ≠ 0 := by simp only [List.length_nil] at h; omega
    simp [plainInt, Plain.bind, plainBytes, takeBytes, this] at hy
    exact hy.symm
  · rw [plainInt_short n d h0 h] at hy
    cases hy

theorem good_int {x : Int} (h : FitsInt x) : Good (writeInt x idBytes) (readInt idBytes) (some x) (· ≠ none) := by
  have hw : writeInt x idBytes = .ok (lowBytes idBytes (x % 256 ^ idBytes).toNat) := by
    exact if_pos h
  refine Good.ofPlain (refines_readInt _) hw ?_ ?_
  · intro rest
    rw [plainInt_lowBytes, signed_round_trip _ _ h.1 h.2]
  · intro k hk y hy
    rw [length_lowBytes] at hk
    simp [plainInt_cut idBytes _ y hy (by rw [List.length_take, length_lowBytes]; omega)]

theorem plainBytes_cut (n : Int) (d : List Byte) (y : Option (List Byte))
    (hy : (plainBytes n d).1 = .ok y) (h : d.length < n.toNat) : y = none := by
  have : ¬ n.toNat ≤ d.length := by omega
  simp only [plainBytes, takeBytes, this, if_false] at hy
  split at hy
  · injection hy with hy; exact hy.symm
  · cases hy

theorem good_coded (c : Codec α) (hc : c.Faithful) (n : Nat) {x : α} (h : FitsCoded c n x) :
    Good (writeCoded c x n) (readCoded c n) (some x) (· ≠ none) := by
  have h' : 2 * (c.encode x).length < 256 ^ n := h
  refine Good.ofPlain (refines_readCoded c n) (writeSized_ok _ n (by omega)) ?_ ?_
  · intro rest
    rw [List.append_assoc, plainCoded, Plain.bind, plainInt_lowBytes, fromBytesSigned_lowBytes _ _ h']
    simp only [plainCodedBody, Plain.bind]
    rw [plainBytes_append _ _ _ rfl]
    simp only [plainDecode, Plain.bind, hc x]
  · intro k hk y hy
    simp only [ne_eq, not_not]
    rw [List.length_append, length_lowBytes] at hk
    by_cases hkn : k < n
    · rw [List.take_append_of_le_length (by rw [length_lowBytes]; omega)] at hy
      unfold plainCoded Plain.bind at hy
      rcases hp : plainInt n ((lowBytes n (c.encode x).length).take k) with ⟨r, d⟩
      rw [hp] at hy
      cases r with
      | error e => cases hy
      | ok v =>
        have := plainInt_cut n _ v (congrArg Prod.fst hp) (by rw [List.length_take, length_lowBytes]; omega)
        subst this
        simp only [plainCodedBody] at hy
        injection hy with hy
        exact hy.symm
    · rw [List.take_append, List.take_of_length_le (by rw [length_lowBytes]; omega), length_lowBytes] at hy
      unfold plainCoded Plain.bind at hy
      rw [plainInt_lowBytes, fromBytesSigned_lowBytes _ _ h'] at hy
      simp only [plainCodedBody] at hy
      unfold Plain.bind at hy
      rcases hp : plainBytes ((c.encode x).length : Int) ((c.encode x).take (k - n)) with ⟨r, d⟩
      rw [hp] at hy
      cases r with
      | error e => cases hy
      | ok v =>
        have := plainBytes_cut _ _ v (congrArg Prod.fst hp) (by rw [List.length_take]; simp; omega)
        subst this
        simp only [plainDecode] at hy
        injection hy with hy
        exact hy.symm

theorem good_float (c : Codec α) (hc : c.Faithful) (h8 : ∀ x, (c.encode x).length = 8) (x : α) :
    Good (writeFloat c x) (readFloat c) (some x) (· ≠ none) := by
  refine Good.ofPlain (refines_readFloat c) rfl ?_ ?_
  · intro rest
    rw [plainFloat, Plain.bind, plainBytes_append _ _ _ (by rw [h8]; rfl)]
    simp only [plainFloatBody, h8, if_true, plainDecode, Plain.bind, hc x]
  · intro k hk y hy
    simp only [ne_eq, not_not]
    rw [h8] at hk
    unfold plainFloat Plain.bind at hy
    rcases hp : plainBytes 8 ((c.encode x).take k) with ⟨r, d⟩
    rw [hp] at hy
    cases r with
    | error e => cases hy
    | ok v =>
      have := plainBytes_cut _ _ v (congrArg Prod.fst hp) (by rw [List.length_take, h8]; show min k 8 < 8; omega)
      subst this
      simp only [plainFloatBody] at hy
      injection hy with hy
      exact hy.symm

theorem plainBytesObj_append (d rest : List Byte) (n : Nat) (hne : d ≠ []) (h : 2 * d.length < 256 ^ n) :
    plainBytesObj n (lowBytes n d.length ++ d ++ rest) = (.ok (some d), rest) := by
  have h0 : ((d.length : Nat) : Int) ≠ 0 := by
    have := List.length_pos_of_ne_nil hne
    omega
  rw [List.append_assoc, plainBytesObj, Plain.bind, plainInt_lowBytes, fromBytesSigned_lowBytes _ _ h]
  simp only [plainBytesObjBody, if_neg h0]
  rw [plainBytes_append _ _ _ rfl]

theorem plainBytesObj_cut (d : List Byte) (n : Nat) (h : 2 * d.length < 256 ^ n) (k : Nat) (hk : k < n + d.length)
    (y : Option (List Byte)) (hy : (plainBytesObj n ((lowBytes n d.length ++ d).take k)).1 = .ok y) : y = none := by
  by_cases hkn : k < n
  · rw [List.take_append_of_le_length (by rw [length_lowBytes]; omega)] at hy
    unfold plainBytesObj Plain.bind at hy
    rcases hp : plainInt n ((lowBytes n d.length).take k) with ⟨r, d'⟩
    rw [hp] at hy
    cases r with
    | error e => cases hy
    | ok v =>
      have := plainInt_cut n _ v (congrArg Prod.fst hp) (by rw [List.length_take, length_lowBytes]; omega)
      subst this
      simp only [plainBytesObjBody] at hy
      injection hy with hy
      exact hy.symm
  · rw [List.take_append, List.take_of_length_le (by rw [length_lowBytes]; omega), length_lowBytes] at hy
    unfold plainBytesObj Plain.bind at hy
    rw [plainInt_lowBytes, fromBytesSigned_lowBytes _ _ h] at hy
    simp only [plainBytesObjBody] at hy
    split at hy
    · injection hy with hy; exact hy.symm
    · exact plainBytes_cut _ _ y hy (by rw [List.length_take]; simp; omega)

theorem good_bytes (n : Nat) {d : List Byte} (hne : d ≠ []) (h : 2 * d.length < 256 ^ n) :
    Good (writeBytesObj (some d) n) (readBytesObj n) (some d) (· ≠ none) := by
  refine Good.ofPlain (refines_readBytesObj n) (writeSized_ok d n (by omega)) ?_ ?_
  · intro rest; exact plainBytesObj_append d rest n hne h
  · intro k hk y hy
    rw [List.length_append, length_lowBytes] at hk
    simp [plainBytesObj_cut d n h k hk y hy]

/-- An array that fits. -/
def FitsArray (c : Codec α) (x : Option α) : Prop :=
  ∀ y, x = some y → c.encode y ≠ [] ∧ 2 * (c.encode y).length < 256 ^ sizeBytes

theorem good_array (c : Codec α) (hc : c.Faithful) {x : Option α} (hx : FitsArray c x) :
    Good (writeArray c idBytes sizeBytes x) (readArray c idBytes sizeBytes) x (fun _ => True) := by
  have h1 : FitsInt 1 := by unfold FitsInt idBytes; omega
  have h0 : FitsInt 0 := by unfold FitsInt idBytes; omega
  have hw : ∀ v : Int, FitsInt v → writeInt v idBytes = .ok (lowBytes idBytes (v % 256 ^ idBytes).toNat) := by
    intro v hv
    exact if_pos hv
  have hri : ∀ (v : Int) rest, FitsInt v →
      plainInt idBytes (lowBytes idBytes (v % 256 ^ idBytes).toNat ++ rest) = (.ok (some v), rest) := by
    intro v rest hv
    rw [plainInt_lowBytes, signed_round_trip _ _ hv.1 hv.2]
  have hflag : ∀ (v : Int) (k : Nat), k < idBytes → ∀ z : Option α,
      (plainArray c idBytes sizeBytes ((lowBytes idBytes (v % 256 ^ idBytes).toNat).take k)).1 ≠ .ok z := by
    intro v k hk z hz
    unfold plainArray Plain.bind at hz
    rcases Nat.eq_zero_or_pos k with h | h
    · subst h
      simp [plainInt, Plain.bind, plainBytes, takeBytes, idBytes, plainArrayFlag, plainBytesObj, sizeBytes,
        plainBytesObjBody, plainArrayBody] at hz
    · rw [plainInt_short idBytes _ (by
        intro e
        have := congrArg List.length e
        rw [List.length_take, length_lowBytes, List.length_nil] at this
        omega) (by rw [List.length_take, length_lowBytes]; omega)] at hz
      cases hz
  cases x with
  | none =>
    refine Good.ofPlain (refines_readArray c _ _) (hw 0 h0) ?_ ?_
    · intro rest
      rw [plainArray, Plain.bind, hri 0 rest h0]
      simp [plainArrayFlag]
    · intro k hk y hy
      rw [length_lowBytes] at hk
      exact absurd hy (hflag 0 k hk y)
  | some a =>
    obtain ⟨hne, hlen⟩ := hx a rfl
    have hwr : writeArray c idBytes sizeBytes (some a) =
        .ok (lowBytes idBytes ((1 : Int) % 256 ^ idBytes).toNat ++ (lowBytes sizeBytes (c.encode a).length ++ c.encode a)) := by
      simp only [writeArray, hw 1 h1, writeBytesObj, writeSized_ok _ sizeBytes (show (c.encode a).length < 256 ^ sizeBytes by omega)]
      rfl
    refine Good.ofPlain (refines_readArray c _ _) hwr ?_ ?_
    · intro rest
      rw [List.append_assoc, plainArray, Plain.bind, hri 1 _ h1]
      simp only [plainArrayFlag, Option.some.injEq, one_ne_zero, if_false]
      unfold Plain.bind
      rw [plainBytesObj_append _ _ _ hne hlen]
      simp only [plainArrayBody, plainDecode, Plain.bind, hc a]
    · intro k hk y hy
      rw [List.length_append, length_lowBytes, List.length_append, length_lowBytes] at hk
      by_cases hki : k < idBytes
      · rw [List.take_append_of_le_length (by rw [length_lowBytes]; omega)] at hy
        exact absurd hy (hflag 1 k hki y)
      · rw [List.take_append, List.take_of_length_le (by rw [length_lowBytes]; omega), length_lowBytes, plainArray,
          Plain.bind, hri 1 _ h1] at hy
        simp only [plainArrayFlag, Option.some.injEq, one_ne_zero, if_false] at hy
        unfold Plain.bind at hy
        rcases hp : plainBytesObj sizeBytes
          ((lowBytes sizeBytes (c.encode a).length ++ c.encode a).take (k - idBytes)) with ⟨r, d⟩
        rw [hp] at hy
        cases r with
        | error e => cases hy
        | ok v =>
          have := plainBytesObj_cut (c.encode a) sizeBytes hlen (k - idBytes) (by omega) v (by rw [hp])
          subst this
          cases hy

theorem good_ints : ∀ {l : List Int}, (∀ x ∈ l, FitsInt x) →
    Good (writeInts l) (readInts l.length) (l.map some) (fun ys => none ∉ ys)
  | [], _ => Good.pure _ _
  | x :: l, h => by
    have hx := good_int (h x List.mem_cons_self)
    have hl := good_ints fun y hy => h y (List.mem_cons_of_mem _ hy)
    have : Good (writeInts l +> wNil) (Reader.bind (readInts l.length) fun xs => Reader.pure (some x :: xs))
        (some x :: l.map some) (fun ys => none ∉ ys) := by
      refine hl.seq (Good.pure _ _) ?_
      intro z hz
      refine Never.pure ?_
      simp only [not_not] at hz ⊢
      exact List.mem_cons_of_mem _ hz
    have e : writeInts l +> wNil = writeInts l := by
      unfold wThen wNil
      cases writeInts l <;> simp
    rw [e] at this
    refine hx.seq this ?_
    intro z hz
    simp only [ne_eq, not_not] at hz
    subst hz
    refine Never.bind fun xs => Never.pure ?_
    simp

/-! ## Requests -/

/-- The codecs give back what they were given; a float has eight bytes. -/
structure Codecs.Faithful (c : Codecs T O F A) : Prop where
  text : c.text.Faithful
  obj : c.obj.Faithful
  float : c.float.Faithful
  array : c.array.Faithful
  eight : ∀ x, (c.float.encode x).length = 8

/-- Specification: what the server has to get for a request - every argument at its place. -/
def Request.received : Request T O F A → Received T O F A
  | .registerQuery mixture groups nodes workers query =>
    .registerQuery (some mixture) (some groups) (some nodes) (some workers) (some query)
  | .queryStatus job => .queryStatus (some job)
  | .readFile path => .readFile (some path)
  | .resultMeta job => .resultMeta (some job)
  | .nextChunk job group node worker => .nextChunk (some job) (some group) (some node) (some worker)
  | .registerDataset name loc dtype parsing parser =>
    .registerDataset (some name) (some loc) (some dtype) (some parsing) (some parser)
  | .datasetStatus id => .datasetStatus (some id)
  | .registerParser name source => .registerParser (some name) (some source)
  | .datasetExists name => .datasetExists (some name)
  | .listDatasets => .listDatasets
  | .removeDataset name => .removeDataset (some name)
  | .addProperty name setup calculation mode ptype lo hi buckets batch degree primary =>
    .addProperty (some name) (some setup) (some calculation) (some mode) (some ptype) (some lo) (some hi) (some buckets)
      (some batch) (some degree) (some primary)
  | .checkpoint job group node status => .checkpoint (some job) (some group) (some node) (status.map some)
  | .checkpointCompleted job id onDisk => .checkpointCompleted (some job) (some id) (some onDisk)
  | .restore job id => .restore (some job) (some id)
  | .feedback job steps mixture losses counts => .feedback (some job) (some steps) (some mixture) losses counts

/-- Every argument fits into its field. -/
def Request.Fits (c : Codecs T O F A) : Request T O F A → Prop
  | .registerQuery mixture groups nodes workers query =>
    FitsCoded c.obj sizeBytes mixture ∧ FitsInt groups ∧ FitsInt nodes ∧ FitsInt workers ∧ FitsCoded c.obj sizeBytes query
  | .queryStatus job => FitsCoded c.text idBytes job
  | .readFile path => FitsCoded c.text idBytes path
  | .resultMeta job => FitsCoded c.text idBytes job
  | .nextChunk job group node worker => FitsCoded c.text idBytes job ∧ FitsInt group ∧ FitsInt node ∧ FitsInt worker
  | .registerDataset name loc dtype parsing parser =>
    FitsCoded c.text idBytes name ∧ FitsCoded c.text idBytes loc ∧ FitsInt dtype ∧ FitsCoded c.obj sizeBytes parsing ∧
      FitsCoded c.text idBytes parser
  | .datasetStatus id => FitsCoded c.text idBytes id
  | .registerParser name source => FitsCoded c.text idBytes name ∧ FitsCoded c.text sizeBytes source
  | .datasetExists name => FitsCoded c.text idBytes name
  | .listDatasets => True
  | .removeDataset name => FitsCoded c.text idBytes name
  | .addProperty name setup calculation mode ptype _ _ buckets batch degree primary =>
    FitsCoded c.text idBytes name ∧ FitsCoded c.obj sizeBytes setup ∧ FitsCoded c.obj sizeBytes calculation ∧ FitsInt mode ∧
      FitsInt ptype ∧ FitsInt buckets ∧ FitsInt batch ∧ FitsInt degree ∧ FitsInt primary
  | .checkpoint job group node status =>
    FitsCoded c.text idBytes job ∧ FitsInt group ∧ FitsInt node ∧ FitsInt status.length ∧ ∀ x ∈ status, FitsInt x
  | .checkpointCompleted job id onDisk => FitsCoded c.text idBytes job ∧ FitsCoded c.text idBytes id ∧ FitsInt onDisk
  | .restore job id => FitsCoded c.text idBytes job ∧ FitsCoded c.text idBytes id
  | .feedback job steps mixture losses counts =>
    FitsCoded c.text idBytes job ∧ FitsInt steps ∧ FitsInt mixture ∧ FitsArray c.array losses ∧ FitsArray c.array counts

/-- What the server has is complete: some request would give it. -/
def Received.Complete (v : Received T O F A) : Prop := ∃ r : Request T O F A, v = r.received

/-- Closes the goals about readings after a missing argument. -/
macro "incomplete" : tactic => `(tactic| (
  intro z hz
  simp only [ne_eq, not_not] at hz
  subst hz
  repeat' (first
    | refine Never.bind fun _ => ?_
    | exact Never.pure (by rintro ⟨r, h⟩; cases r <;> simp [Request.received] at h))))

theorem fits_task (n : Nat) (h : n < 256) : FitsInt (n : Int) := by
  unfold FitsInt idBytes; omega

theorem Request.good (c : Codecs T O F A) (hc : c.Faithful) (r : Request T O F A) (hr : r.Fits c) :
    Good (r.write c) (readRequest c) r.received Received.Complete := by
  cases r with
  | registerQuery mixture groups nodes workers query =>
    obtain ⟨h1, h2, h3, h4, h5⟩ := hr
    refine (good_int (fits_task 0 (by omega))).seq ?_ (by incomplete)
    refine (good_coded _ hc.obj _ h1).seq ?_ (by incomplete)
    refine (good_int h2).seq ?_ (by incomplete)
    refine (good_int h3).seq ?_ (by incomplete)
    refine (good_int h4).seq ?_ (by incomplete)
    refine (good_coded _ hc.obj _ h5).seq ?_ (by incomplete)
    exact Good.pure _ _
  | queryStatus job =>
    refine (good_int (fits_task 1 (by omega))).seq ?_ (by incomplete)
    refine (good_coded _ hc.text _ hr).seq ?_ (by incomplete)
    exact Good.pure _ _
  | readFile path =>
    refine (good_int (fits_task 2 (by omega))).seq ?_ (by incomplete)
    refine (good_coded _ hc.text _ hr).seq ?_ (by incomplete)
    exact Good.pure _ _
  | resultMeta job =>
    refine (good_int (fits_task 4 (by omega))).seq ?_ (by incomplete)
    refine (good_coded _ hc.text _ hr).seq ?_ (by incomplete)
    exact Good.pure _ _
  | nextChunk job group node worker =>
    obtain ⟨h1, h2, h3, h4⟩ := hr
    refine (good_int (fits_task 5 (by omega))).seq ?_ (by incomplete)
    refine (good_coded _ hc.text _ h1).seq ?_ (by incomplete)
    refine (good_int h2).seq ?_ (by incomplete)
    refine (good_int h3).seq ?_ (by incomplete)
    refine (good_int h4).seq ?_ (by incomplete)
    exact Good.pure _ _
  | registerDataset name loc dtype parsing parser =>
    obtain ⟨h1, h2, h3, h4, h5⟩ := hr
    refine (good_int (fits_task 6 (by omega))).seq ?_ (by incomplete)
    refine (good_coded _ hc.text _ h1).seq ?_ (by incomplete)
    refine (good_coded _ hc.text _ h2).seq ?_ (by incomplete)
    refine (good_int h3).seq ?_ (by incomplete)
    refine (good_coded _ hc.obj _ h4).seq ?_ (by incomplete)
    refine (good_coded _ hc.text _ h5).seq ?_ (by incomplete)
    exact Good.pure _ _
  | datasetStatus id =>
    refine (good_int (fits_task 7 (by omega))).seq ?_ (by incomplete)
    refine (good_coded _ hc.text _ hr).seq ?_ (by incomplete)
    exact Good.pure _ _
  | registerParser name source =>
    refine (good_int (fits_task 8 (by omega))).seq ?_ (by incomplete)
    refine (good_coded _ hc.text _ hr.1).seq ?_ (by incomplete)
    refine (good_coded _ hc.text _ hr.2).seq ?_ (by incomplete)
    exact Good.pure _ _
  | datasetExists name =>
    refine (good_int (fits_task 9 (by omega))).seq ?_ (by incomplete)
    refine (good_coded _ hc.text _ hr).seq ?_ (by incomplete)
    exact Good.pure _ _
  | listDatasets =>
    have h := good_int (fits_task 10 (by omega))
    exact Good.seq (b := wNil) (f := dispatch c) (y := .listDatasets) h (Good.pure _ _) (by incomplete)
  | removeDataset name =>
    refine (good_int (fits_task 11 (by omega))).seq ?_ (by incomplete)
    refine (good_coded _ hc.text _ hr).seq ?_ (by incomplete)
    exact Good.pure _ _
  | addProperty name setup calculation mode ptype lo hi buckets batch degree primary =>
    obtain ⟨h1, h2, h3, h4, h5, h6, h7, h8, h9⟩ := hr
    refine (good_int (fits_task 12 (by omega))).seq ?_ (by incomplete)
    refine (good_coded _ hc.text _ h1).seq ?_ (by incomplete)
    refine (good_coded _ hc.obj _ h2).seq ?_ (by incomplete)
    refine (good_coded _ hc.obj _ h3).seq ?_ (by incomplete)
    refine (good_int h4).seq ?_ (by incomplete)
    refine (good_int h5).seq ?_ (by incomplete)
    refine (good_float _ hc.float hc.eight lo).seq ?_ (by incomplete)
    refine (good_float _ hc.float hc.eight hi).seq ?_ (by incomplete)
    refine (good_int h6).seq ?_ (by incomplete)
    refine (good_int h7).seq ?_ (by incomplete)
    refine (good_int h8).seq ?_ (by incomplete)
    refine (good_int h9).seq ?_ (by incomplete)
    exact Good.pure _ _
  | checkpoint job group node status =>
    obtain ⟨h1, h2, h3, h4, h5⟩ := hr
    refine (good_int (fits_task 13 (by omega))).seq ?_ (by incomplete)
    refine (good_coded _ hc.text _ h1).seq ?_ (by incomplete)
    refine (good_int h2).seq ?_ (by incomplete)
    refine (good_int h3).seq ?_ (by incomplete)
    refine (good_int h4).seq ?_ (by
      intro z hz
      simp only [ne_eq, not_not] at hz
      subst hz
      exact Never.bind_raise)
    refine Good.seq (P := fun ys => none ∉ ys) (x := status.map some) ?_ (Good.pure _ _) ?_
    · show Good (writeInts status) (readInts ((status.length : Int).toNat)) _ _
      rw [Int.toNat_natCast]
      exact good_ints h5
    · intro z hz
      simp only [not_not] at hz
      refine Never.pure ?_
      rintro ⟨r, h⟩
      cases r <;> simp only [Request.received, Received.checkpoint.injEq, reduceCtorEq] at h
      rw [h.2.2.2] at hz
      simp at hz
  | checkpointCompleted job id onDisk =>
    obtain ⟨h1, h2, h3⟩ := hr
    refine (good_int (fits_task 14 (by omega))).seq ?_ (by incomplete)
    refine (good_coded _ hc.text _ h1).seq ?_ (by incomplete)
    refine (good_coded _ hc.text _ h2).seq ?_ (by incomplete)
    refine (good_int h3).seq ?_ (by incomplete)
    exact Good.pure _ _
  | restore job id =>
    refine (good_int (fits_task 15 (by omega))).seq ?_ (by incomplete)
    refine (good_coded _ hc.text _ hr.1).seq ?_ (by incomplete)
    refine (good_coded _ hc.text _ hr.2).seq ?_ (by incomplete)
    exact Good.pure _ _
  | feedback job steps mixture losses counts =>
    obtain ⟨h1, h2, h3, h4, h5⟩ := hr
    refine (good_int (fits_task 16 (by omega))).seq ?_ (by incomplete)
    refine (good_coded _ hc.text _ h1).seq ?_ (by incomplete)
    refine (good_int h2).seq ?_ (by incomplete)
    refine (good_int h3).seq ?_ (by incomplete)
    refine (good_array _ hc.array h4).seq ?_ (fun z hz => absurd trivial hz)
    refine (good_array _ hc.array h5).seq ?_ (fun z hz => absurd trivial hz)
    exact Good.pure _ _

/-- **C60** (requests). For every request whose arguments fit into their fields, however the bytes are fragmented: the
server reads exactly the arguments the client gave, each at its place, and leaves what follows on the connection. -/
theorem c60_request (c : Codecs T O F A) (hc : c.Faithful) (r : Request T O F A) (hr : r.Fits c) :
    ∃ w, r.write c = .ok w ∧ ∀ rest s, Delivers s (w ++ rest) → Reads (readRequest c) s r.received rest := by
  obtain ⟨w, hw⟩ := (r.good c hc hr).ok
  exact ⟨w, hw, (r.good c hc hr).rt w hw⟩

/-- **C60** (cut requests). If only a part of a request arrives, whatever the delays, the server never sees a complete
request - neither this one nor another one. -/
theorem c60_cut (c : Codecs T O F A) (hc : c.Faithful) (r : Request T O F A) (hr : r.Fits c) (w : List Byte)
    (hw : r.write c = .ok w) (k : Nat) (hk : k < w.length) (s : Stream) (hs : s.data = w.take k)
    (r' : Request T O F A) : (readRequest c s).1 ≠ .ok r'.received :=
  fun h => (r.good c hc hr).cut w hw k hk s hs _ h ⟨r', rfl⟩

/-! ## Replies -/

/-- The reply fits into its fields. -/
def Reply.Fits (c : Codecs T O F A) : Reply T O → Prop
  | .int x => FitsInt x
  | .name x => FitsCoded c.text idBytes x
  | .content x => FitsCoded c.text sizeBytes x
  | .obj x => FitsCoded c.obj sizeBytes x
  | .bytes none => True
  | .bytes (some d) => d ≠ [] ∧ 2 * d.length < 256 ^ sizeBytes

/-- Specification: what the caller gets; "no chunk" is `None`. -/
def Reply.seen : Reply T O → Option (Reply T O)
  | .bytes none => none
  | r => some r

theorem wThen_nil (a : Except NetErr (List Byte)) : a +> wNil = a := by
  unfold wThen wNil
  cases a <;> simp

theorem Good.map {a : Except NetErr (List Byte)} {p : Reader (Option α)} {x : Option α} {f : α → β} {y : Option β}
    (h : Good a p x (· ≠ none)) (hy : x.map f = y) : Good a (Reader.bind p fun r => Reader.pure (r.map f)) y (· ≠ none) := by
  subst hy
  have := h.seq (f := fun r => Reader.pure (r.map f)) (y := x.map f) (Q := (· ≠ none)) (Good.pure _ _) (by
    intro z hz
    simp only [ne_eq, not_not] at hz
    subst hz
    exact Never.pure (by simp))
  rwa [wThen_nil] at this

theorem good_no_bytes (n : Nat) : Good (writeBytesObj none n) (readBytesObj n) none (· ≠ none) := by
  have h0 : 2 * 0 < 256 ^ n := by positivity
  have hw : writeBytesObj none n = .ok (lowBytes n 0) := by simp [writeBytesObj, toBytes]
  refine Good.ofPlain (refines_readBytesObj n) hw ?_ ?_
  · intro rest
    rw [plainBytesObj, Plain.bind, plainInt_lowBytes, fromBytesSigned_lowBytes _ _ h0]
    simp [plainBytesObjBody]
  · intro k hk y hy
    rw [length_lowBytes] at hk
    simp [plainBytesObj_cut [] n (by simp) k (by simpa using hk) y (by simpa using hy)]

theorem Request.good_reply (c : Codecs T O F A) (hc : c.Faithful) (r : Request T O F A) (y : Reply T O) (ha : r.Answers y)
    (hf : y.Fits c) : Good (y.write c) (r.readReply c) y.seen (· ≠ none) := by
  cases r <;> cases y <;> simp only [Request.Answers] at ha
  all_goals first
    | exact (good_int hf).map rfl
    | exact (good_coded _ hc.text _ hf).map rfl
    | exact (good_coded _ hc.obj _ hf).map rfl
    | (rename_i d
       cases d with
       | none => exact (good_no_bytes sizeBytes).map rfl
       | some d => exact (good_bytes sizeBytes hf.1 hf.2).map rfl)

/-- **C60** (replies). For every request and every reply of its kind that fits: the client reads exactly the reply, with
"no chunk" as `None`. -/
theorem c60_reply (c : Codecs T O F A) (hc : c.Faithful) (r : Request T O F A) (y : Reply T O) (ha : r.Answers y)
    (hf : y.Fits c) :
    ∃ w, y.write c = .ok w ∧ ∀ rest s, Delivers s (w ++ rest) → Reads (r.readReply c) s y.seen rest := by
  obtain ⟨w, hw⟩ := (r.good_reply c hc y ha hf).ok
  exact ⟨w, hw, (r.good_reply c hc y ha hf).rt w hw⟩

/-! ## Exchanges -/

variable {σ : Type}

/-- Nothing is lost or delayed beyond the timeouts; the fragmentation is arbitrary. -/
structure Link.Fine (l : Link) : Prop where
  reachable : l.reachable = true
  request : l.requestLen = none
  requestPrompt : ∀ k, l.requestAvail k ≠ none
  reply : l.replyLen = none
  replyPrompt : ∀ k, l.replyAvail k ≠ none

theorem readReply_empty (c : Codecs T O F A) (r : Request T O F A) (s : Stream) (hs : s.data = []) :
    (∃ e, (r.readReply c s).1 = .error e) ∨ (r.readReply c s).1 = .ok none := by
  have hI : ∀ n, 0 < n → (∃ e, (readInt n s).1 = .error e) ∨ (readInt n s).1 = .ok none := by
    intro n hn
    rcases (refines_readInt n).timeout s with h | ⟨h, _⟩
    · exact Or.inl ⟨_, h⟩
    · right
      rw [h, hs]
      have : n ≠ 0 := by omega
      simp [plainInt, Plain.bind, plainBytes, takeBytes, this]
  have hC : ∀ {α : Type} (k : Codec α) n, 0 < n → (∃ e, (readCoded k n s).1 = .error e) ∨ (readCoded k n s).1 = .ok none := by
    intro α k n hn
    rcases (refines_readCoded k n).timeout s with h | ⟨h, _⟩
    · exact Or.inl ⟨_, h⟩
    · right
      rw [h, hs]
      have : n ≠ 0 := by omega
      simp [plainCoded, plainInt, Plain.bind, plainBytes, takeBytes, this, plainCodedBody]
  have hB : ∀ n, 0 < n → (∃ e, (readBytesObj n s).1 = .error e) ∨ (readBytesObj n s).1 = .ok none := by
    intro n hn
    rcases (refines_readBytesObj n).timeout s with h | ⟨h, _⟩
    · exact Or.inl ⟨_, h⟩
    · right
      rw [h, hs]
      have : n ≠ 0 := by omega
      simp [plainBytesObj, plainInt, Plain.bind, plainBytes, takeBytes, this, plainBytesObjBody]
  have hmap : ∀ {α β : Type} (p : Reader (Option α)) (f : α → β),
      ((∃ e, (p s).1 = .error e) ∨ (p s).1 = .ok none) →
      (∃ e, (Reader.bind p (fun r => Reader.pure (r.map f)) s).1 = .error e) ∨
        (Reader.bind p (fun r => Reader.pure (r.map f)) s).1 = .ok none := by
    intro α β p f h
    unfold Reader.bind
    rcases hp : p s with ⟨x, s'⟩
    rw [hp] at h
    rcases h with ⟨e, h⟩ | h
    · simp only at h; subst h; exact Or.inl ⟨e, rfl⟩
    · simp only at h; subst h; exact Or.inr rfl
  cases r <;> first
    | exact hmap _ _ (hI _ (by decide))
    | exact hmap _ _ (hC _ _ (by decide))
    | exact hmap _ _ (hB _ (by decide))

theorem readReply_closed (c : Codecs T O F A) (r : Request T O F A) (s : Stream) (hs : s.data = []) (hp : s.Prompt) :
    (r.readReply c s).1 = .ok none := by
  have hI : ∀ n, 0 < n → (readInt n s).1 = .ok none := by
    intro n hn
    rw [((refines_readInt n).prompt hp).1, hs]
    have : n ≠ 0 := by omega
    simp [plainInt, Plain.bind, plainBytes, takeBytes, this]
  have hC : ∀ {α : Type} (k : Codec α) n, 0 < n → (readCoded k n s).1 = .ok none := by
    intro α k n hn
    rw [((refines_readCoded k n).prompt hp).1, hs]
    have : n ≠ 0 := by omega
    simp [plainCoded, plainInt, Plain.bind, plainBytes, takeBytes, this, plainCodedBody]
  have hB : ∀ n, 0 < n → (readBytesObj n s).1 = .ok none := by
    intro n hn
    rw [((refines_readBytesObj n).prompt hp).1, hs]
    have : n ≠ 0 := by omega
    simp [plainBytesObj, plainInt, Plain.bind, plainBytes, takeBytes, this, plainBytesObjBody]
  have hmap : ∀ {α β : Type} (p : Reader (Option α)) (f : α → β), (p s).1 = .ok none →
      (Reader.bind p (fun r => Reader.pure (r.map f)) s).1 = .ok none := by
    intro α β p f h
    unfold Reader.bind
    rcases hp : p s with ⟨x, s'⟩
    rw [hp] at h
    simp only at h
    subst h
    rfl
  cases r <;> first
    | exact hmap _ _ (hI _ (by decide))
    | exact hmap _ _ (hC _ _ (by decide))
    | exact hmap _ _ (hB _ (by decide))

/-- **C60** (a call). When nothing is lost, a call runs the handler exactly once, on exactly the arguments of the caller,
and returns exactly the handler's reply. -/
theorem c60_call (c : Codecs T O F A) (hc : c.Faithful) (handler : Received T O F A → σ → σ × Option (Reply T O))
    (r : Request T O F A) (hr : r.Fits c) (l : Link) (hl : l.Fine) (s : σ) (y : Reply T O)
    (hy : (handler r.received s).2 = some y) (ha : r.Answers y) (hf : y.Fits c) :
    exchange c handler r l s = ((handler r.received s).1, .ok y.seen) := by
  have G := r.good c hc hr
  obtain ⟨w, hw⟩ := G.ok
  have R := r.good_reply c hc y ha hf
  obtain ⟨v, hv⟩ := R.ok
  have h1 := (G.rt w hw [] ⟨w, l.requestAvail, 0⟩ ⟨by simp, hl.requestPrompt⟩).1
  have h2 := (R.rt v hv [] ⟨v, l.replyAvail, 0⟩ ⟨by simp, hl.replyPrompt⟩).1
  simp only [exchange, hl.reachable, if_true, hw, hl.request, arrived, serveRequest, h1, hy, hv, hl.reply, h2]

/-- **C60** (a failing handler). If the handler raises an exception, the call returns nothing: the caller cannot tell this
from an answer "nothing". -/
theorem c60_handler_raises (c : Codecs T O F A) (hc : c.Faithful) (handler : Received T O F A → σ → σ × Option (Reply T O))
    (r : Request T O F A) (hr : r.Fits c) (l : Link) (hl : l.Fine) (s : σ) (hy : (handler r.received s).2 = none) :
    exchange c handler r l s = ((handler r.received s).1, .ok none) := by
  have G := r.good c hc hr
  obtain ⟨w, hw⟩ := G.ok
  have h1 := (G.rt w hw [] ⟨w, l.requestAvail, 0⟩ ⟨by simp, hl.requestPrompt⟩).1
  have h2 := readReply_closed c r ⟨[], l.replyAvail, 0⟩ rfl hl.replyPrompt
  simp only [exchange, hl.reachable, if_true, hw, hl.request, arrived, serveRequest, h1, hy, hl.reply, h2]

theorem arrived_cases (n : Option Nat) (w : List Byte) :
    arrived n w = w ∨ ∃ k, k < w.length ∧ arrived n w = w.take k := by
  cases n with
  | none => exact Or.inl rfl
  | some k =>
    by_cases h : k < w.length
    · exact Or.inr ⟨k, h, rfl⟩
    · exact Or.inl (List.take_of_length_le (by omega))

/-- **C60** (any network). Whatever the network does - no connection, a request or a reply cut anywhere, any delays: the
server does nothing, or runs the handler once on what it has read, which is either exactly the request or visibly
incomplete; and whenever the call returns something, it is exactly what the handler replied. -/
theorem c60_any_network (c : Codecs T O F A) (hc : c.Faithful) (handler : Received T O F A → σ → σ × Option (Reply T O))
    (r : Request T O F A) (hr : r.Fits c) (l : Link) (s : σ)
    (ha : ∀ v y, (v = r.received ∨ ¬ v.Complete) → (handler v s).2 = some y → r.Answers y ∧ y.Fits c) :
    ((exchange c handler r l s).1 = s ∧ ∀ y, (exchange c handler r l s).2 ≠ .ok (some y)) ∨
    ∃ v, (v = r.received ∨ ¬ v.Complete) ∧ (exchange c handler r l s).1 = (handler v s).1 ∧
      ∀ y, (exchange c handler r l s).2 = .ok (some y) → ∃ y', (handler v s).2 = some y' ∧ y'.seen = some y := by
  have G := r.good c hc hr
  obtain ⟨w, hw⟩ := G.ok
  unfold exchange
  cases hlr : l.reachable with
  | false => left; simp
  | true =>
    simp only [if_true, hw]
    have hempty : ∀ (n : Option Nat) (y : Reply T O),
        (r.readReply c ⟨arrived n [], l.replyAvail, 0⟩).1 ≠ .ok (some y) := by
      intro n y hy
      rcases readReply_empty c r ⟨arrived n [], l.replyAvail, 0⟩ (by cases n <;> simp [arrived]) with ⟨e, h⟩ | h
      · rw [h] at hy; cases hy
      · rw [h] at hy; cases hy
    unfold serveRequest
    cases hrd : (readRequest c ⟨arrived l.requestLen w, l.requestAvail, 0⟩).1 with
    | error e => left; exact ⟨rfl, hempty _⟩
    | ok v =>
      right
      have hcase : v = r.received ∨ ¬ v.Complete := by
        rcases arrived_cases l.requestLen w with h | ⟨k, hk, h⟩
        · left
          rcases G.full w hw [] ⟨arrived l.requestLen w, l.requestAvail, 0⟩ (by rw [h]; simp) with ⟨e, he⟩ | ⟨he, _⟩
          · rw [hrd] at he; cases he
          · rw [hrd] at he; injection he
        · right
          exact G.cut w hw k hk ⟨arrived l.requestLen w, l.requestAvail, 0⟩ h v hrd
      refine ⟨v, hcase, ?_⟩
      · cases hh : (handler v s).2 with
        | none =>
          simp only [hh]
          exact ⟨trivial, fun y hy => absurd hy (hempty _ y)⟩
        | some y' =>
          obtain ⟨a1, a2⟩ := ha v y' hcase hh
          have R := r.good_reply c hc y' a1 a2
          obtain ⟨u, hu⟩ := R.ok
          simp only [hh, hu]
          refine ⟨trivial, fun y hy => ⟨y', rfl, ?_⟩⟩
          rcases arrived_cases l.replyLen u with h | ⟨k, hk, h⟩
          · rcases R.full u hu [] ⟨arrived l.replyLen u, l.replyAvail, 0⟩ (by rw [h]; simp) with ⟨e, he⟩ | ⟨he, _⟩
            · rw [hy] at he; cases he
            · rw [hy] at he; injection he with he; exact he.symm
          · have := R.cut u hu k hk ⟨arrived l.replyLen u, l.replyAvail, 0⟩ h _ hy
            simp at this

/-! ## Concrete cases -/

/-- Codecs for byte strings and a float type with one value. -/
def byteCodecs : Codecs (List Byte) (List Byte) Unit (List Byte) where
  text := ⟨id, .ok⟩
  obj := ⟨id, .ok⟩
  float := ⟨fun _ => List.replicate 8 0, fun _ => .ok ()⟩
  array := ⟨id, .ok⟩

theorem byteCodecs_faithful : byteCodecs.Faithful :=
  ⟨fun _ => rfl, fun _ => rfl, fun _ => rfl, fun _ => rfl, fun _ => rfl⟩

/-- A checkpoint report that meets the hypotheses. -/
example : (Request.checkpoint [106, 49] 1 0 [5, 0, 17] : Request (List Byte) (List Byte) Unit (List Byte)).Fits byteCodecs := by
  simp [Request.Fits, FitsCoded, FitsInt, byteCodecs, idBytes]

deriving instance DecidableEq for Received

/-- **C60** (acting on a cut request). What is cut off is not a complete request, but some handlers act on it all the same:
of this `add_property` all but the last argument has arrived, and the handler gets every argument it needs, with `None`
for `data_only_on_primary`; the completion of a checkpoint is then asked for with `on_disk = None`, which counts as false. -/
theorem c60_acts_on_cut_request :
    (readRequest byteCodecs ⟨([0, 0, 0, 0, 0, 0, 0, 12, 0, 0, 0, 0, 0, 0, 0, 1, 112] ++ List.replicate 32 0 ++
        List.replicate 16 0 ++ List.replicate 16 0 ++ List.replicate 24 0 : List Byte), fun _ => some 3, 0⟩).1 =
      .ok (.addProperty (some [112]) (some []) (some []) (some 0) (some 0) (some ()) (some ()) (some 0) (some 0) (some 0) none) ∧
    (readRequest byteCodecs ⟨([0, 0, 0, 0, 0, 0, 0, 14] ++ [0, 0, 0, 0, 0, 0, 0, 1, 106] ++ [0, 0, 0, 0, 0, 0, 0, 1, 49] : List Byte),
        fun _ => some 3, 0⟩).1 = .ok (.checkpointCompleted (some [106]) (some [49]) none) := by
  constructor <;> decide +kernel

end Mixtera.Net
