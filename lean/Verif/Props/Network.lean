import Verif.Model.Network

/-!
# C47, C48: frames on a connection

`takeBytes` is the specification of reading: a function of the bytes the peer has sent and nothing else.
-/

namespace Mixtera.Net

variable {α β : Type}

/-- Specification: the result of asking for `n` bytes when `data` is all that will arrive, and what is left of it. -/
def takeBytes (n : Nat) (data : List Byte) : Except NetErr (Option (List Byte)) × List Byte :=
  if n ≤ data.length then (.ok (some (data.take n)), data.drop n)
  else if data = [] then (.ok none, [])
  else (.error .connection, [])

/-- Specification: nothing is delayed beyond the timeout. -/
def Stream.Prompt (s : Stream) : Prop := ∀ k, s.avail k ≠ none

/-- A reading that depends on the bytes only. -/
abbrev Plain (α : Type) := List Byte → Except NetErr α × List Byte

/-- The reader gives the plain result or times out, and it times out only if something is delayed. -/
def Refines (p : Reader α) (q : Plain α) : Prop := ∀ s : Stream,
  (p s).2.avail = s.avail ∧
  (((p s).1 = .error .timeout ∧ ∃ k, s.avail k = none) ∨
    ((p s).1 = (q s.data).1 ∧ (p s).2.data = (q s.data).2))

theorem Refines.prompt {p : Reader α} {q : Plain α} (h : Refines p q) {s : Stream} (hs : s.Prompt) :
    (p s).1 = (q s.data).1 ∧ (p s).2.data = (q s.data).2 := by
  rcases (h s).2 with ⟨_, k, hk⟩ | h
  · exact absurd hk (hs k)
  · exact h

theorem Refines.timeout {p : Reader α} {q : Plain α} (h : Refines p q) (s : Stream) :
    (p s).1 = .error .timeout ∨ ((p s).1 = (q s.data).1 ∧ (p s).2.data = (q s.data).2) := by
  rcases (h s).2 with ⟨h, _⟩ | h
  · exact Or.inl h
  · exact Or.inr h

theorem Refines.avail {p : Reader α} {q : Plain α} (h : Refines p q) {s : Stream} (hs : s.Prompt) :
    (p s).2.Prompt := by
  intro k; rw [(h s).1]; exact hs k

/-- Sequencing of plain readings. -/
def Plain.bind (p : Plain α) (f : α → Plain β) : Plain β := fun d =>
  match p d with
  | (.ok x, d') => f x d'
  | (.error e, d') => (.error e, d')

theorem refines_pure (x : α) : Refines (Reader.pure x) (fun d => (.ok x, d)) := fun _ => ⟨rfl, Or.inr ⟨rfl, rfl⟩⟩

theorem refines_raise (e : NetErr) : Refines (Reader.raise e : Reader α) (fun d => (.error e, d)) :=
  fun _ => ⟨rfl, Or.inr ⟨rfl, rfl⟩⟩

theorem refines_lift (r : Except NetErr α) : Refines (Reader.lift r) (fun d => (r, d)) := by
  cases r
  · exact refines_raise _
  · exact refines_pure _

theorem Refines.bind {p : Reader α} {q : Plain α} {f : α → Reader β} {g : α → Plain β} (h : Refines p q)
    (hf : ∀ x, Refines (f x) (g x)) : Refines (Reader.bind p f) (Plain.bind q g) := by
  intro s
  obtain ⟨ha, hr⟩ := h s
  unfold Reader.bind Plain.bind
  rcases hp : p s with ⟨r, s'⟩
  rcases hq : q s.data with ⟨r', d'⟩
  rw [hp] at ha hr
  rw [hq] at hr
  simp only at ha hr ⊢
  rcases hr with ⟨h1, hk⟩ | ⟨h1, h2⟩
  · subst h1
    exact ⟨ha, Or.inl ⟨rfl, hk⟩⟩
  · subst h1
    cases r with
    | error e => exact ⟨ha, Or.inr ⟨rfl, h2⟩⟩
    | ok x =>
      obtain ⟨hb, hr'⟩ := hf x s'
      simp only
      rw [← h2, ← ha]
      exact ⟨hb, hr'⟩

theorem readLoop_spec (n fuel : Nat) : ∀ (buffer : List Byte) (s : Stream), n ≤ buffer.length + fuel →
    buffer.length ≤ n →
    (readLoop n fuel buffer s).2.avail = s.avail ∧
    (((readLoop n fuel buffer s).1 = .error .timeout ∧ ∃ k, s.avail k = none) ∨
      (if n ≤ buffer.length + s.data.length then
        (readLoop n fuel buffer s).1 = .ok (some (buffer ++ s.data.take (n - buffer.length))) ∧
          (readLoop n fuel buffer s).2.data = s.data.drop (n - buffer.length)
       else if buffer ++ s.data = [] then
        (readLoop n fuel buffer s).1 = .ok none ∧ (readLoop n fuel buffer s).2.data = []
       else (readLoop n fuel buffer s).1 = .error .connection ∧ (readLoop n fuel buffer s).2.data = [])) := by
  induction fuel with
  | zero =>
    intro buffer s h1 h2
    have : ¬ buffer.length < n := by omega
    have h0 : n - buffer.length = 0 := by omega
    have h3 : n ≤ buffer.length + s.data.length := by omega
    simp [readLoop, this, h0, h3, Reader.pure]
  | succ fuel ih =>
    intro buffer s h1 h2
    by_cases hlt : buffer.length < n
    swap
    · have h0 : n - buffer.length = 0 := by omega
      have h3 : n ≤ buffer.length + s.data.length := by omega
      simp [readLoop, hlt, h0, h3, Reader.pure]
    cases hc : s.avail s.tick with
    | none =>
      have : readLoop n (fuel + 1) buffer s = (.error .timeout, { s with tick := s.tick + 1 }) := by
        simp [readLoop, hlt, Reader.bind, Stream.read, hc]
      rw [this]
      exact ⟨rfl, Or.inl ⟨rfl, _, hc⟩⟩
    | some c =>
      have hm : ∃ m, min (n - buffer.length) (c + 1) = m + 1 := ⟨min (n - buffer.length) (c + 1) - 1, by omega⟩
      obtain ⟨m, hm⟩ := hm
      have hstep : readLoop n (fuel + 1) buffer s =
          onChunk buffer (s.data.take (m + 1)) (readLoop n fuel)
            { s with data := s.data.drop (m + 1), tick := s.tick + 1 } := by
        simp [readLoop, hlt, Reader.bind, Stream.read, hc, hm]
      rw [hstep]
      cases hd : s.data with
      | nil =>
        have hlt' : ¬ n ≤ buffer.length + 0 := by omega
        by_cases hb : buffer = []
        · simp [onChunk, hb, Reader.pure, hlt']
          subst hb
          simp at hlt
          omega
        · simp [onChunk, hb, Reader.raise, hlt]
      | cons b d =>
        have hne : (b :: d).take (m + 1) ≠ [] := by simp
        rw [onChunk, if_neg hne]
        have hlen : ((b :: d).take (m + 1)).length = min (m + 1) (d.length + 1) := by simp
        obtain ⟨ha, hr⟩ := ih (buffer ++ (b :: d).take (m + 1)) { s with data := (b :: d).drop (m + 1), tick := s.tick + 1 }
          (by rw [List.length_append, hlen]; omega) (by rw [List.length_append, hlen]; omega)
        refine ⟨ha, ?_⟩
        rcases hr with hr | hr
        · exact Or.inl hr
        · right
          have hl2 : ((b :: d).drop (m + 1)).length = (d.length + 1) - (m + 1) := by simp
          simp only [List.length_append, hlen, hl2] at hr
          simp only [List.length_cons]
          have hsplit : buffer ++ (b :: d).take (m + 1) ++ (b :: d).drop (m + 1) = buffer ++ (b :: d) := by
            rw [List.append_assoc, List.take_append_drop]
          by_cases hn : n ≤ buffer.length + (d.length + 1)
          · rw [if_pos (by omega)] at hr
            rw [if_pos hn]
            by_cases hmd : m + 1 ≤ d.length + 1
            · rw [show min (m + 1) (d.length + 1) = m + 1 by omega] at hr
              have e : n - buffer.length = (m + 1) + (n - (buffer.length + (m + 1))) := by omega
              rw [hr.1, hr.2, e]
              constructor
              · rw [List.append_assoc, ← List.take_add]
              · rw [List.drop_drop]
            · exact absurd hmd (by omega)
          · rw [if_neg (by omega), hsplit] at hr
            rw [if_neg hn]
            exact hr

/-- The plain version of `read_bytes`. -/
def plainBytes (n : Int) : Plain (Option (List Byte)) := takeBytes n.toNat

theorem refines_readBytes (n : Int) : Refines (readBytes n) (plainBytes n) := by
  intro s
  obtain ⟨ha, hr⟩ := readLoop_spec n.toNat n.toNat [] s (by simp) (by simp)
  refine ⟨ha, ?_⟩
  rcases hr with hr | hr
  · exact Or.inl hr
  · right
    simp only [List.length_nil, Nat.zero_add, List.nil_append, Nat.sub_zero] at hr
    unfold readBytes plainBytes takeBytes
    split_ifs at hr ⊢ <;> exact hr

/-- The plain version of `read_int`. -/
def plainInt (n : Nat) : Plain (Option Int) :=
  Plain.bind (plainBytes n) fun r d => (.ok (r.map fromBytesSigned), d)

theorem refines_readInt (n : Nat) : Refines (readInt n) (plainInt n) :=
  (refines_readBytes _).bind fun _ => refines_pure _

/-- The plain version of the body of a bytes object. -/
def plainBytesObjBody : Option Int → Plain (Option (List Byte))
  | none => fun d => (.ok none, d)
  | some size => if size = 0 then fun d => (.ok none, d) else plainBytes size

/-- The plain version of `read_bytes_obj`. -/
def plainBytesObj (n : Nat) : Plain (Option (List Byte)) := Plain.bind (plainInt n) plainBytesObjBody

theorem refines_readBytesObj (n : Nat) : Refines (readBytesObj n) (plainBytesObj n) := by
  refine (refines_readInt n).bind fun r => ?_
  cases r with
  | none => exact refines_pure _
  | some size =>
    simp only [bytesObjBody, plainBytesObjBody]
    split_ifs
    · exact refines_pure _
    · exact refines_readBytes _

/-- The plain version of decoding. -/
def plainDecode (c : Codec α) : Option (List Byte) → Plain (Option α)
  | none => fun d => (.ok none, d)
  | some b => Plain.bind (fun d => (c.decode b, d)) fun x d => (.ok (some x), d)

theorem refines_decodeRead (c : Codec α) (r : Option (List Byte)) : Refines (decodeRead c r) (plainDecode c r) := by
  cases r with
  | none => exact refines_pure _
  | some b => exact (refines_lift _).bind fun _ => refines_pure _

/-- The plain version of the body of a coded object. -/
def plainCodedBody (c : Codec α) : Option Int → Plain (Option α)
  | none => fun d => (.ok none, d)
  | some size => Plain.bind (plainBytes size) (plainDecode c)

/-- The plain version of `read_utf8_string` and `read_pickeled_object`. -/
def plainCoded (c : Codec α) (n : Nat) : Plain (Option α) := Plain.bind (plainInt n) (plainCodedBody c)

theorem refines_readCoded (c : Codec α) (n : Nat) : Refines (readCoded c n) (plainCoded c n) := by
  refine (refines_readInt n).bind fun r => ?_
  cases r with
  | none => exact refines_pure _
  | some size => exact (refines_readBytes _).bind fun _ => refines_decodeRead _ _

/-- The plain version of the body of a float. -/
def plainFloatBody (c : Codec α) : Option (List Byte) → Plain (Option α)
  | none => fun d => (.ok none, d)
  | some b => if b.length = 8 then plainDecode c (some b) else fun d => (.ok none, d)

/-- The plain version of `read_float`. -/
def plainFloat (c : Codec α) : Plain (Option α) := Plain.bind (plainBytes 8) (plainFloatBody c)

theorem refines_readFloat (c : Codec α) : Refines (readFloat c) (plainFloat c) := by
  refine (refines_readBytes 8).bind fun r => ?_
  cases r with
  | none => exact refines_pure _
  | some b =>
    simp only [floatBody, plainFloatBody]
    split_ifs
    · exact refines_decodeRead _ _
    · exact refines_pure _

/-- The plain version of the body of an array. -/
def plainArrayBody (c : Codec α) : Option (List Byte) → Plain (Option α)
  | none => fun d => (.error .assertion, d)
  | some b => plainDecode c (some b)

/-- The plain version of what follows the flag of an array. -/
def plainArrayFlag (c : Codec α) (m : Nat) (flag : Option Int) : Plain (Option α) :=
  if flag = some 0 then fun d => (.ok none, d) else Plain.bind (plainBytesObj m) (plainArrayBody c)

/-- The plain version of `read_numpy_array`. -/
def plainArray (c : Codec α) (n m : Nat) : Plain (Option α) := Plain.bind (plainInt n) (plainArrayFlag c m)

theorem refines_readArray (c : Codec α) (n m : Nat) : Refines (readArray c n m) (plainArray c n m) := by
  refine (refines_readInt n).bind fun r => ?_
  unfold arrayFlag plainArrayFlag
  split_ifs
  · exact refines_pure _
  · refine (refines_readBytesObj m).bind fun r => ?_
    cases r with
    | none => exact refines_raise _
    | some b => exact refines_decodeRead _ _

/-! ## C48 -/

/-- **C48** (exact result of `read_bytes`). If nothing is delayed beyond the timeout, asking for `n` bytes gives the next
`n` bytes and leaves the rest; if the connection was closed before the first byte it gives `None`, and if it was closed in
the middle it raises a connection error, for every way the transport fragments the data. -/
theorem c48_read_bytes (n : Nat) (s : Stream) (hs : s.Prompt) :
    (n ≤ s.data.length → (readBytes n s).1 = .ok (some (s.data.take n)) ∧ (readBytes n s).2.data = s.data.drop n) ∧
    (0 < n → s.data = [] → (readBytes n s).1 = .ok none) ∧
    (0 < s.data.length → s.data.length < n → (readBytes n s).1 = .error .connection) := by
  obtain ⟨h1, h2⟩ := (refines_readBytes n).prompt hs
  simp only [plainBytes, Int.toNat_natCast] at h1 h2
  rw [h1, h2]
  refine ⟨fun h => ?_, fun h0 hd => ?_, fun h0 h => ?_⟩
  · simp [takeBytes, h]
  · have : ¬ n = 0 := by omega
    simp [takeBytes, hd, this]
  · have h' : ¬ n ≤ s.data.length := by omega
    have hne : s.data ≠ [] := by intro e; simp [e] at h0
    simp [takeBytes, h', hne]

/-- The readers of this layer. -/
inductive IsReadHelper : {δ : Type} → Reader δ → Prop
  | bytes (n : Int) : IsReadHelper (readBytes n)
  | int (n : Nat) : IsReadHelper (readInt n)
  | bytesObj (n : Nat) : IsReadHelper (readBytesObj n)
  | coded {δ : Type} (c : Codec δ) (n : Nat) : IsReadHelper (readCoded c n)
  | float {δ : Type} (c : Codec δ) : IsReadHelper (readFloat c)
  | array {δ : Type} (c : Codec δ) (n m : Nat) : IsReadHelper (readArray c n m)
  | andThen {δ ε : Type} (p : Reader δ) (f : δ → Reader ε) : IsReadHelper p → (∀ x, IsReadHelper (f x)) →
      IsReadHelper (Reader.bind p f)
  | done {δ : Type} (x : δ) : IsReadHelper (Reader.pure x)
  | fail {δ : Type} (e : NetErr) : IsReadHelper (Reader.raise e : Reader δ)

theorem IsReadHelper.refines {p : Reader α} (h : IsReadHelper p) : ∃ q, Refines p q := by
  induction h with
  | bytes n => exact ⟨_, refines_readBytes n⟩
  | int n => exact ⟨_, refines_readInt n⟩
  | bytesObj n => exact ⟨_, refines_readBytesObj n⟩
  | coded c n => exact ⟨_, refines_readCoded c n⟩
  | float c => exact ⟨_, refines_readFloat c⟩
  | array c n m => exact ⟨_, refines_readArray c n m⟩
  | andThen p f _ _ ih ihf =>
    obtain ⟨q, hq⟩ := ih
    choose g hg using ihf
    exact ⟨_, hq.bind hg⟩
  | done x => exact ⟨_, refines_pure x⟩
  | fail e => exact ⟨_, refines_raise e⟩

/-- **C48** (fragmentation). Two connections that deliver the same bytes, however fragmented, give the same result - the
same value or the same exception - for every read helper and for every program made of read helpers, and leave the same
bytes to be read. -/
theorem c48_fragmentation {p : Reader α} (hp : IsReadHelper p) (s t : Stream) (hd : s.data = t.data)
    (hs : s.Prompt) (ht : t.Prompt) : (p s).1 = (p t).1 ∧ (p s).2.data = (p t).2.data := by
  obtain ⟨q, hq⟩ := hp.refines
  obtain ⟨h1, h2⟩ := hq.prompt hs
  obtain ⟨h3, h4⟩ := hq.prompt ht
  rw [h1, h2, h3, h4, hd]
  exact ⟨rfl, rfl⟩

/-- **C48** (delays). If the data is delayed, a read may time out, but it never gives a result other than the one without
delays. -/
theorem c48_delays {p : Reader α} (hp : IsReadHelper p) (s t : Stream) (hd : s.data = t.data) (ht : t.Prompt) :
    (p s).1 = .error .timeout ∨ ((p s).1 = (p t).1 ∧ (p s).2.data = (p t).2.data) := by
  obtain ⟨q, hq⟩ := hp.refines
  obtain ⟨h3, h4⟩ := hq.prompt ht
  rw [h3, h4, ← hd]
  exact hq.timeout s

/-! ## Numbers as bytes -/

theorem fromBytes_append (l : List Byte) (b : Byte) : fromBytes (l ++ [b]) = fromBytes l * 256 + b.val := by
  simp [fromBytes]

theorem length_lowBytes (n : Nat) : ∀ x, (lowBytes n x).length = n := by
  induction n with
  | zero => intro x; rfl
  | succ n ih => intro x; simp [lowBytes, ih]

theorem fromBytes_lowBytes (n : Nat) : ∀ x, x < 256 ^ n → fromBytes (lowBytes n x) = x := by
  induction n with
  | zero => intro x h; simp at h; simp [h, lowBytes, fromBytes]
  | succ n ih =>
    intro x h
    rw [lowBytes, fromBytes_append, ih (x / 256) (by rw [Nat.div_lt_iff_lt_mul (by norm_num)]; rw [pow_succ] at h; exact h)]
    simp only [Fin.ofNat]
    omega

theorem fromBytesSigned_lowBytes (n x : Nat) (h : 2 * x < 256 ^ n) : fromBytesSigned (lowBytes n x) = x := by
  have : x < 256 ^ n := by omega
  rw [fromBytesSigned, fromBytes_lowBytes n x this, length_lowBytes, if_pos h]

theorem fromBytesSigned_large (n x : Nat) (h : 256 ^ n ≤ 2 * x) (hx : x < 256 ^ n) :
    fromBytesSigned (lowBytes n x) = (x : Int) - 256 ^ n := by
  rw [fromBytesSigned, fromBytes_lowBytes n x hx, length_lowBytes, if_neg (by omega)]

theorem signed_round_trip (n : Nat) (x : Int) (h1 : -(256 ^ n : Int) ≤ 2 * x) (h2 : 2 * x < 256 ^ n) :
    fromBytesSigned (lowBytes n (x % 256 ^ n).toNat) = x := by
  have hpos : (0 : Int) < 256 ^ n := by positivity
  have hcast : ((256 ^ n : Nat) : Int) = 256 ^ n := by push_cast; rfl
  have h3 : 0 ≤ x % 256 ^ n := Int.emod_nonneg _ (by omega)
  have h4 : x % 256 ^ n < 256 ^ n := Int.emod_lt_of_pos _ hpos
  have hlt : (x % 256 ^ n).toNat < 256 ^ n := by
    have : ((x % 256 ^ n).toNat : Int) < ((256 ^ n : Nat) : Int) := by rw [hcast, Int.toNat_of_nonneg h3]; exact h4
    exact_mod_cast this
  rcases lt_or_ge x 0 with hx | hx
  · have e : x % 256 ^ n = x + 256 ^ n := by
      rw [← Int.add_emod_right, Int.emod_eq_of_lt (by omega) (by omega)]
    have ht : ((x % 256 ^ n).toNat : Int) = x + 256 ^ n := by rw [Int.toNat_of_nonneg h3, e]
    rw [fromBytesSigned_large _ _ _ hlt, ht]
    · ring
    · have : ((256 ^ n : Nat) : Int) ≤ 2 * ((x % 256 ^ n).toNat : Int) := by rw [hcast, ht]; omega
      exact_mod_cast this
  · have e : x % 256 ^ n = x := Int.emod_eq_of_lt hx (by omega)
    have ht : ((x % 256 ^ n).toNat : Int) = x := by rw [Int.toNat_of_nonneg h3, e]
    rw [fromBytesSigned_lowBytes _ _ _, ht]
    have : 2 * ((x % 256 ^ n).toNat : Int) < ((256 ^ n : Nat) : Int) := by rw [hcast, ht]; omega
    exact_mod_cast this

/-! ## C47 -/

/-- A connection on which `sent` has been sent, without delays beyond the timeout. -/
def Delivers (s : Stream) (sent : List Byte) : Prop := s.data = sent ∧ s.Prompt

/-- The reading gives this value and leaves the rest. -/
def Reads (p : Reader α) (s : Stream) (x : α) (rest : List Byte) : Prop :=
  (p s).1 = .ok x ∧ Delivers (p s).2 rest

theorem Refines.reads {p : Reader α} {q : Plain α} (h : Refines p q) {s : Stream} {sent : List Byte}
    (hs : Delivers s sent) {x : α} {rest : List Byte} (hq : q sent = (.ok x, rest)) : Reads p s x rest := by
  obtain ⟨h1, h2⟩ := h.prompt hs.2
  rw [hs.1, hq] at h1 h2
  exact ⟨h1, h2, h.avail hs.2⟩

theorem takeBytes_append (l rest : List Byte) : takeBytes l.length (l ++ rest) = (.ok (some l), rest) := by
  simp [takeBytes]

theorem plainBytes_append (l rest : List Byte) (n : Int) (h : n = l.length) :
    plainBytes n (l ++ rest) = (.ok (some l), rest) := by
  subst h; simp [plainBytes, takeBytes]

theorem plainInt_lowBytes (n x : Nat) (rest : List Byte) :
    plainInt n (lowBytes n x ++ rest) = (.ok (some (fromBytesSigned (lowBytes n x))), rest) := by
  unfold plainInt Plain.bind
  rw [plainBytes_append _ _ _ (by rw [length_lowBytes])]
  rfl

/-- **C47** (integers). Every integer that can be written in `n` bytes is read back, whatever follows it on the
connection and however it is fragmented; exactly the integers outside the signed range cannot be written. -/
theorem c47_int (n : Nat) (x : Int) :
    (-(256 ^ n : Int) ≤ 2 * x ∧ 2 * x < 256 ^ n →
      ∃ w, writeInt x n = .ok w ∧ w.length = n ∧
        ∀ rest s, Delivers s (w ++ rest) → Reads (readInt n) s (some x) rest) ∧
    (¬ (-(256 ^ n : Int) ≤ 2 * x ∧ 2 * x < 256 ^ n) → writeInt x n = .error .overflow) := by
  constructor
  · intro h
    refine ⟨lowBytes n (x % 256 ^ n).toNat, by rw [writeInt, toBytesSigned, if_pos h], length_lowBytes _ _, ?_⟩
    intro rest s hs
    refine (refines_readInt n).reads hs ?_
    rw [plainInt_lowBytes, signed_round_trip n x h.1 h.2]
  · intro h
    rw [writeInt, toBytesSigned, if_neg h]

theorem writeSized_ok (d : List Byte) (n : Nat) (h : d.length < 256 ^ n) :
    writeSized d n = .ok (lowBytes n d.length ++ d) := by
  simp [writeSized, toBytes, h]

/-- **C47** (byte strings). A byte string that is not empty and shorter than half of what the header can hold is read back
unchanged, whatever follows it on the connection and however it is fragmented. What is missing from the full statement:
the empty byte string comes back as `None` (`c47_empty_bytes`) and byte strings with a length in the upper half of the
header's range are written but come back empty (`c47_sign_bit`). -/
theorem c47_bytes_partial (n : Nat) (d : List Byte) (hne : d ≠ []) (hlen : 2 * d.length < 256 ^ n) :
    ∃ w, writeBytesObj (some d) n = .ok w ∧
      ∀ rest s, Delivers s (w ++ rest) → Reads (readBytesObj n) s (some d) rest := by
  refine ⟨_, writeSized_ok d n (by omega), ?_⟩
  intro rest s hs
  refine (refines_readBytesObj n).reads hs ?_
  have h0 : ((d.length : Nat) : Int) ≠ 0 := by
    have := List.length_pos_iff.2 hne
    omega
  rw [List.append_assoc, plainBytesObj, Plain.bind, plainInt_lowBytes, fromBytesSigned_lowBytes _ _ hlen]
  simp only [plainBytesObjBody, if_neg h0]
  exact plainBytes_append _ _ _ rfl

/-- **C47** (`None`). `None` is read back as `None`, and so is the empty byte string. -/
theorem c47_empty_bytes (n : Nat) (data : Option (List Byte)) (h : data = none ∨ data = some []) :
    ∃ w, writeBytesObj data n = .ok w ∧
      ∀ rest s, Delivers s (w ++ rest) → Reads (readBytesObj n) s none rest := by
  have hpos : 2 * 0 < 256 ^ n := by positivity
  refine ⟨lowBytes n 0, ?_, ?_⟩
  · rcases h with h | h <;> subst h <;> simp [writeBytesObj, writeSized, toBytes]
  intro rest s hs
  refine (refines_readBytesObj n).reads hs ?_
  rw [plainBytesObj, Plain.bind, plainInt_lowBytes, fromBytesSigned_lowBytes _ _ hpos]
  rfl

/-- **C47** (texts and objects). Every text and every object whose encoding is shorter than half of what the header can
hold is read back unchanged, the empty text included, provided that decoding inverts encoding. -/
theorem c47_coded_partial (c : Codec α) (hc : c.Faithful) (n : Nat) (x : α) (hlen : 2 * (c.encode x).length < 256 ^ n) :
    ∃ w, writeCoded c x n = .ok w ∧
      ∀ rest s, Delivers s (w ++ rest) → Reads (readCoded c n) s (some x) rest := by
  refine ⟨_, writeSized_ok _ n (by omega), ?_⟩
  intro rest s hs
  refine (refines_readCoded c n).reads hs ?_
  rw [List.append_assoc, plainCoded, Plain.bind, plainInt_lowBytes, fromBytesSigned_lowBytes _ _ hlen]
  simp only [plainCodedBody, Plain.bind, plainBytes_append _ _ _ rfl, plainDecode, hc x]

/-- **C47** (floats). Every float is read back unchanged, provided that packing gives eight bytes and is inverted by
unpacking. -/
theorem c47_float (c : Codec α) (hc : c.Faithful) (h8 : ∀ x, (c.encode x).length = 8) (x : α) :
    ∃ w, writeFloat c x = .ok w ∧ ∀ rest s, Delivers s (w ++ rest) → Reads (readFloat c) s (some x) rest := by
  refine ⟨_, rfl, ?_⟩
  intro rest s hs
  refine (refines_readFloat c).reads hs ?_
  rw [plainFloat, Plain.bind, plainBytes_append _ _ _ (by rw [h8]; rfl)]
  simp only [plainFloatBody, h8, if_true, plainDecode, Plain.bind, hc x]

/-- **C47** (arrays). Every array and `None` are read back unchanged, for a header of at least one byte. -/
theorem c47_array_partial (c : Codec α) (hc : c.Faithful) (n m : Nat) (hn : 0 < n) (x : Option α)
    (hx : ∀ y, x = some y → c.encode y ≠ [] ∧ 2 * (c.encode y).length < 256 ^ m) :
    ∃ w, writeArray c n m x = .ok w ∧ ∀ rest s, Delivers s (w ++ rest) → Reads (readArray c n m) s x rest := by
  have hbig : (256 : Nat) ≤ 256 ^ n := by
    calc (256 : Nat) = 256 ^ 1 := by norm_num
      _ ≤ 256 ^ n := Nat.pow_le_pow_right (by norm_num) hn
  have hbigZ : (256 : Int) ≤ 256 ^ n := by exact_mod_cast hbig
  have hflag : ∀ v : Int, v = 0 ∨ v = 1 → writeInt v n = .ok (lowBytes n v.toNat) := by
    intro v hv
    have : v % 256 ^ n = v := Int.emod_eq_of_lt (by omega) (by omega)
    rw [writeInt, toBytesSigned, if_pos (by omega), this]
  have hread : ∀ (v : Nat) rest, v = 0 ∨ v = 1 →
      plainInt n (lowBytes n v ++ rest) = (.ok (some (v : Int)), rest) := by
    intro v rest hv
    rw [plainInt_lowBytes, fromBytesSigned_lowBytes _ _ (by omega)]
  cases x with
  | none =>
    refine ⟨_, hflag 0 (by simp), ?_⟩
    intro rest s hs
    refine (refines_readArray c n m).reads hs ?_
    rw [plainArray, Plain.bind]
    have := hread 0 rest (by simp)
    simp only [Int.toNat_zero]
    rw [this]
    rfl
  | some y =>
    obtain ⟨hne, hlen⟩ := hx y rfl
    refine ⟨lowBytes n 1 ++ (lowBytes m (c.encode y).length ++ c.encode y), ?_, ?_⟩
    · simp only [writeArray, hflag 1 (by simp), writeBytesObj, writeSized_ok _ m (show (c.encode y).length < 256 ^ m by omega)]
      rfl
    intro rest s hs
    refine (refines_readArray c n m).reads hs ?_
    have h0 : (((c.encode y).length : Nat) : Int) ≠ 0 := by
      have := List.length_pos_iff.2 hne
      omega
    rw [plainArray, Plain.bind, List.append_assoc, hread 1 _ (by simp)]
    have hflag1 : ¬ (some ((1 : Nat) : Int) = some 0) := by decide
    simp only [plainArrayFlag, if_neg hflag1]
    rw [List.append_assoc, Plain.bind, plainBytesObj, Plain.bind, plainInt_lowBytes, fromBytesSigned_lowBytes _ _ hlen]
    simp only [plainBytesObjBody, if_neg h0, plainBytes_append _ _ _ rfl, plainArrayBody, plainDecode, Plain.bind, hc y]

/-- **C47** (the sign bit). A byte string whose length lies in the upper half of the header's range is written without an
error and read back as the empty byte string, and its bytes are left on the connection, to be taken for the next
message. -/
theorem c47_sign_bit (n : Nat) (d : List Byte) (h1 : 256 ^ n ≤ 2 * d.length) (h2 : d.length < 256 ^ n) :
    ∃ w, writeBytesObj (some d) n = .ok w ∧
      ∀ rest s, Delivers s (w ++ rest) → Reads (readBytesObj n) s (some []) (d ++ rest) := by
  refine ⟨_, writeSized_ok d n h2, ?_⟩
  intro rest s hs
  refine (refines_readBytesObj n).reads hs ?_
  have hneg : ((d.length : Nat) : Int) - 256 ^ n < 0 := by
    have : ((d.length : Nat) : Int) < ((256 ^ n : Nat) : Int) := by exact_mod_cast h2
    push_cast at this
    omega
  rw [List.append_assoc, plainBytesObj, Plain.bind, plainInt_lowBytes, fromBytesSigned_large _ _ h1 h2]
  have h0 : ((d.length : Nat) : Int) - 256 ^ n ≠ 0 := by omega
  simp only [plainBytesObjBody, if_neg h0, plainBytes]
  rw [Int.toNat_of_nonpos (by omega)]
  simp [takeBytes]

/-- **C47** (too long). Longer byte strings raise `OverflowError` when they are written. -/
theorem c47_too_long (n : Nat) (d : List Byte) (h : 256 ^ n ≤ d.length) :
    writeBytesObj (some d) n = .error .overflow := by
  have : ¬ d.length < 256 ^ n := by omega
  simp [writeBytesObj, writeSized, toBytes, this]

/-- A message of a conversation, with the kind of helper used for it. -/
inductive Msg (α β γ : Type)
  | int (x : Int) | bytes (d : Option (List Byte)) | text (x : α) | float (x : β) | array (x : Option γ)

variable {γ : Type}

/-- Writing a message with the sizes the server and the client use. -/
def Msg.write (ct : Codec α) (cf : Codec β) (ca : Codec γ) : Msg α β γ → Except NetErr (List Byte)
  | .int x => writeInt x idBytes
  | .bytes d => writeBytesObj d sizeBytes
  | .text x => writeCoded ct x sizeBytes
  | .float x => writeFloat cf x
  | .array x => writeArray ca idBytes sizeBytes x

/-- Reading a message of the same kind; `None` of the helper is part of the result. -/
def Msg.read (ct : Codec α) (cf : Codec β) (ca : Codec γ) : Msg α β γ → Reader (Option (Msg α β γ))
  | .int _ => Reader.bind (readInt idBytes) fun r => Reader.pure (r.map .int)
  | .bytes _ => Reader.bind (readBytesObj sizeBytes) fun r => Reader.pure (some (.bytes r))
  | .text _ => Reader.bind (readCoded ct sizeBytes) fun r => Reader.pure (r.map .text)
  | .float _ => Reader.bind (readFloat cf) fun r => Reader.pure (r.map .float)
  | .array _ => Reader.bind (readArray ca idBytes sizeBytes) fun r => Reader.pure (some (.array r))

/-- The message is within the limits of its helper. -/
def Msg.Fits (ct : Codec α) (ca : Codec γ) : Msg α β γ → Prop
  | .int x => -(256 ^ idBytes : Int) ≤ 2 * x ∧ 2 * x < 256 ^ idBytes
  | .bytes d => ∀ b, d = some b → b ≠ [] ∧ 2 * b.length < 256 ^ sizeBytes
  | .text x => 2 * (ct.encode x).length < 256 ^ sizeBytes
  | .float _ => True
  | .array x => ∀ y, x = some y → ca.encode y ≠ [] ∧ 2 * (ca.encode y).length < 256 ^ sizeBytes

/-- Writing a conversation. -/
def writeAll (ct : Codec α) (cf : Codec β) (ca : Codec γ) : List (Msg α β γ) → Except NetErr (List Byte)
  | [] => .ok []
  | m :: ms => do
    let w ← m.write ct cf ca
    let ws ← writeAll ct cf ca ms
    return w ++ ws

/-- Reading a conversation whose kinds are known. -/
def readAll (ct : Codec α) (cf : Codec β) (ca : Codec γ) : List (Msg α β γ) → Reader (List (Option (Msg α β γ)))
  | [] => Reader.pure []
  | m :: ms => Reader.bind (m.read ct cf ca) fun r =>
      Reader.bind (readAll ct cf ca ms) fun rs => Reader.pure (r :: rs)

theorem Reads.bind {p : Reader α} {f : α → Reader β} {s : Stream} {x : α} {y : β} {rest rest' : List Byte}
    (h : Reads p s x rest) (hf : ∀ s', Delivers s' rest → Reads (f x) s' y rest') : Reads (Reader.bind p f) s y rest' := by
  unfold Reads Reader.bind
  rcases hp : p s with ⟨r, s'⟩
  have h1 := h.1
  have h2 := h.2
  rw [hp] at h1 h2
  simp only at h1 h2
  subst h1
  exact hf s' h2

theorem reads_pure (x : α) {s : Stream} {rest : List Byte} (h : Delivers s rest) : Reads (Reader.pure x) s x rest :=
  ⟨rfl, h⟩

theorem Msg.round_trip (ct : Codec α) (cf : Codec β) (ca : Codec γ) (hct : ct.Faithful) (hcf : cf.Faithful)
    (h8 : ∀ x, (cf.encode x).length = 8) (hca : ca.Faithful) (m : Msg α β γ) (hm : m.Fits ct ca) :
    ∃ w, m.write ct cf ca = .ok w ∧ ∀ rest s, Delivers s (w ++ rest) → Reads (m.read ct cf ca) s (some m) rest := by
  cases m with
  | int x =>
    obtain ⟨w, hw, _, hr⟩ := (c47_int idBytes x).1 hm
    exact ⟨w, hw, fun rest s hs => (hr rest s hs).bind fun s' h' => reads_pure _ h'⟩
  | bytes d =>
    cases d with
    | none =>
      obtain ⟨w, hw, hr⟩ := c47_empty_bytes sizeBytes none (Or.inl rfl)
      exact ⟨w, hw, fun rest s hs => (hr rest s hs).bind fun s' h' => reads_pure _ h'⟩
    | some b =>
      obtain ⟨w, hw, hr⟩ := c47_bytes_partial sizeBytes b (hm b rfl).1 (hm b rfl).2
      exact ⟨w, hw, fun rest s hs => (hr rest s hs).bind fun s' h' => reads_pure _ h'⟩
  | text x =>
    obtain ⟨w, hw, hr⟩ := c47_coded_partial ct hct sizeBytes x hm
    exact ⟨w, hw, fun rest s hs => (hr rest s hs).bind fun s' h' => reads_pure _ h'⟩
  | float x =>
    obtain ⟨w, hw, hr⟩ := c47_float cf hcf h8 x
    exact ⟨w, hw, fun rest s hs => (hr rest s hs).bind fun s' h' => reads_pure _ h'⟩
  | array x =>
    obtain ⟨w, hw, hr⟩ := c47_array_partial ca hca idBytes sizeBytes (by decide) x hm
    exact ⟨w, hw, fun rest s hs => (hr rest s hs).bind fun s' h' => reads_pure _ h'⟩

/-- **C47** (conversations). A sequence of messages of any kinds and any length, each within its limits, is read back
message by message, whatever the fragmentation, and nothing that follows is consumed. -/
theorem c47_conversation_partial (ct : Codec α) (cf : Codec β) (ca : Codec γ) (hct : ct.Faithful) (hcf : cf.Faithful)
    (h8 : ∀ x, (cf.encode x).length = 8) (hca : ca.Faithful) (ms : List (Msg α β γ)) (hms : ∀ m ∈ ms, m.Fits ct ca) :
    ∃ w, writeAll ct cf ca ms = .ok w ∧
      ∀ rest s, Delivers s (w ++ rest) → Reads (readAll ct cf ca ms) s (ms.map some) rest := by
  induction ms with
  | nil => exact ⟨[], rfl, fun rest s hs => reads_pure _ hs⟩
  | cons m ms ih =>
    obtain ⟨ws, hws, hrs⟩ := ih fun m' h => hms m' (List.mem_cons_of_mem _ h)
    obtain ⟨w, hw, hr⟩ := Msg.round_trip ct cf ca hct hcf h8 hca m (hms m List.mem_cons_self)
    refine ⟨w ++ ws, ?_, ?_⟩
    · rw [writeAll, hw, hws]; rfl
    · intro rest s hs
      rw [List.append_assoc] at hs
      exact (hr _ s hs).bind fun s' h' => (hrs rest s' h').bind fun s'' h'' => reads_pure _ h''

/-! ## C48, cut frames -/

theorem plainInt_short (n : Nat) (d : List Byte) (h0 : d ≠ []) (h : d.length < n) :
    plainInt n d = (.error .connection, []) := by
  have : ¬ n ≤ d.length := by omega
  simp [plainInt, Plain.bind, plainBytes, takeBytes, this, h0]

/-- **C48** (cut frames). If the connection is closed in the middle of a byte string - inside the header or inside the
body - reading it raises a connection error. What is missing from the full statement: a connection closed exactly between
the header and the body (`c48_cut_after_header`). -/
theorem c48_cut_partial (n : Nat) (d : List Byte) (hlen : 2 * d.length < 256 ^ n) (k : Nat) (h0 : 0 < k)
    (hk : k < n + d.length) (hkn : k ≠ n) (w : List Byte) (hw : writeBytesObj (some d) n = .ok w) (s : Stream)
    (hs : Delivers s (w.take k)) : (readBytesObj n s).1 = .error .connection := by
  rw [writeBytesObj, writeSized_ok d n (by omega)] at hw
  injection hw with hw
  subst hw
  obtain ⟨h1, _⟩ := (refines_readBytesObj n).prompt hs.2
  rw [h1, hs.1, plainBytesObj, Plain.bind]
  rcases lt_or_gt_of_ne hkn with h | h
  · rw [plainInt_short]
    · intro e
      have := congrArg List.length e
      simp [length_lowBytes] at this
      omega
    · simp [length_lowBytes]; omega
  · have e : (lowBytes n d.length ++ d).take k = lowBytes n d.length ++ d.take (k - n) := by
      rw [List.take_append, length_lowBytes, List.take_of_length_le (by rw [length_lowBytes]; omega)]
    rw [e, plainInt_lowBytes, fromBytesSigned_lowBytes _ _ hlen]
    have h0 : ((d.length : Nat) : Int) ≠ 0 := by omega
    have h2 : ¬ d.length ≤ (d.take (k - n)).length := by simp; omega
    have h3 : d.take (k - n) ≠ [] := by
      intro e
      have := congrArg List.length e
      simp at this
      rcases this with h | h
      · omega
      · simp [h] at hk; omega
    simp only [plainBytesObjBody, if_neg h0, plainBytes, Int.toNat_natCast, takeBytes, if_neg h2, if_neg h3]

/-- **C48** (cut after the header). If the connection is closed after the header of a byte string that is not empty,
reading gives `None`, as if nothing or `None` had been sent. -/
theorem c48_cut_after_header (n : Nat) (d : List Byte) (hne : d ≠ []) (hlen : 2 * d.length < 256 ^ n)
    (w : List Byte) (hw : writeBytesObj (some d) n = .ok w) (s : Stream) (hs : Delivers s (w.take n)) :
    (readBytesObj n s).1 = .ok none := by
  rw [writeBytesObj, writeSized_ok d n (by omega)] at hw
  injection hw with hw
  subst hw
  obtain ⟨h1, _⟩ := (refines_readBytesObj n).prompt hs.2
  have e : (lowBytes n d.length ++ d).take n = lowBytes n d.length ++ [] := by
    rw [List.take_append, length_lowBytes, List.take_of_length_le (by rw [length_lowBytes])]
    simp
  rw [h1, hs.1, e, plainBytesObj, Plain.bind, plainInt_lowBytes, fromBytesSigned_lowBytes _ _ hlen]
  have hl := List.length_pos_iff.2 hne
  have h0 : ((d.length : Nat) : Int) ≠ 0 := by omega
  have h2 : ¬ d = [] := hne
  simp [plainBytesObjBody, plainBytes, takeBytes, h2]

/-- A connection closed before the first byte gives `None`. -/
theorem c48_closed (n : Nat) (hn : 0 < n) (s : Stream) (hs : Delivers s []) : (readBytesObj n s).1 = .ok none := by
  obtain ⟨h1, _⟩ := (refines_readBytesObj n).prompt hs.2
  have : ¬ n ≤ 0 := by omega
  rw [h1, hs.1]
  simp [plainBytesObj, Plain.bind, plainInt, plainBytes, takeBytes, plainBytesObjBody, this]

/-! ## A concrete case -/

/-- Messages of different kinds meet the hypotheses of `c47_conversation_partial`. -/
example : ∃ w, writeAll (α := List Byte) (β := Unit) (γ := Byte) ⟨id, .ok⟩ ⟨fun _ => List.replicate 8 0, fun _ => .ok ()⟩
      ⟨fun b => [b], fun l => .ok (l.headD 0)⟩ [.int (-5), .bytes (some [7, 8, 9]), .bytes none, .text [], .float (),
        .array (some 3), .array none] = .ok w := by
  refine (c47_conversation_partial _ _ _ (fun _ => rfl) (fun _ => rfl) (fun _ => rfl) (fun _ => rfl) _ ?_).imp
    fun _ h => h.1
  intro m hm
  simp only [List.mem_cons, List.not_mem_nil, or_false] at hm
  rcases hm with rfl | rfl | rfl | rfl | rfl | rfl | rfl
  · norm_num [Msg.Fits, idBytes]
  · intro b hb; cases hb; constructor <;> simp [sizeBytes]
  · intro b hb; cases hb
  · simp [Msg.Fits, sizeBytes]
  · trivial
  · intro b hb; cases hb; constructor <;> simp [sizeBytes]
  · intro b hb; cases hb

example : (readBytesObj 1 ⟨[2, 5, 6], fun k => some k, 0⟩).1 = .ok (some [5, 6]) := by decide +kernel

/-- The hypotheses of `c47_sign_bit` can be met: 128 bytes behind a header of one byte. -/
example : 256 ^ 1 ≤ 2 * (List.replicate 128 (0 : Byte)).length ∧ (List.replicate 128 (0 : Byte)).length < 256 ^ 1 := by
  rw [List.length_replicate]; decide

end Mixtera.Net
