import Verif.Model.Connection
import Verif.Props.Protocol

/-!
# C77: connecting to the server, and what the client's methods return

Specification: `FirstOpen net k` says which attempt is the first of the ten to give a connection; `dials`, `bodies` and
`closes` list what an observer of the client sees.
-/

namespace Mixtera.Net

variable {T O F A σ ε α : Type}

/-- Attempt `k` is the first one that gives a connection. -/
def FirstOpen (net : Nat → Dial) (k : Nat) : Prop := k < 10 ∧ net k = .opened ∧ ∀ j < k, net j ≠ .opened

/-- None of the ten attempts gives a connection. -/
def NeverOpen (net : Nat → Dial) : Prop := ∀ k < 10, net k ≠ .opened

/-- The attempts that were made, in order. -/
def dials (log : List ConnEv) : List Nat := log.filterMap fun | .dial k => some k | _ => none

/-- The times the body ran, with what it was given. -/
def bodies (log : List ConnEv) : List (Option Nat) := log.filterMap fun | .body k => some k | _ => none

/-- The connections that were closed, in order. -/
def closes (log : List ConnEv) : List Nat := log.filterMap fun | .close k => some k | _ => none

@[simp] theorem dials_append (a b : List ConnEv) : dials (a ++ b) = dials a ++ dials b := by simp [dials]
@[simp] theorem bodies_append (a b : List ConnEv) : bodies (a ++ b) = bodies a ++ bodies b := by simp [bodies]
@[simp] theorem closes_append (a b : List ConnEv) : closes (a ++ b) = closes a ++ closes b := by simp [closes]
@[simp] theorem dials_nil : dials [] = [] := rfl
@[simp] theorem bodies_nil : bodies [] = [] := rfl
@[simp] theorem closes_nil : closes [] = [] := rfl
@[simp] theorem dials_dial (k : Nat) (l : List ConnEv) : dials (.dial k :: l) = k :: dials l := rfl
@[simp] theorem dials_body (k : Option Nat) (l : List ConnEv) : dials (.body k :: l) = dials l := rfl
@[simp] theorem dials_close (k : Nat) (l : List ConnEv) : dials (.close k :: l) = dials l := rfl
@[simp] theorem bodies_dial (k : Nat) (l : List ConnEv) : bodies (.dial k :: l) = bodies l := rfl
@[simp] theorem bodies_body (k : Option Nat) (l : List ConnEv) : bodies (.body k :: l) = k :: bodies l := rfl
@[simp] theorem bodies_close (k : Nat) (l : List ConnEv) : bodies (.close k :: l) = bodies l := rfl
@[simp] theorem closes_dial (k : Nat) (l : List ConnEv) : closes (.dial k :: l) = closes l := rfl
@[simp] theorem closes_body (k : Option Nat) (l : List ConnEv) : closes (.body k :: l) = closes l := rfl
@[simp] theorem closes_close (k : Nat) (l : List ConnEv) : closes (.close k :: l) = k :: closes l := rfl

/-- The loop of attempts: it stops at the first opened connection, or after all of them. -/
theorem dialFrom_cases (net : Nat → Dial) : ∀ (left k : Nat) (w : Option Nat),
    (∃ n, n < left ∧ net (k + n) = .opened ∧ (∀ j < n, net (k + j) ≠ .opened) ∧
      (dialFrom net left k w).2 = .atConn (k + n) ∧ (dialFrom net left k w).1 = (List.range' k (n + 1)).map .dial) ∨
    ((∀ j < left, net (k + j) ≠ .opened) ∧
      (dialFrom net left k w).1 = (List.range' k left).map .dial ∧
      ∃ w', (dialFrom net left k w).2 = .atNone w' ∧
        ((w' = w ∧ ∀ j < left, net (k + j) = .refused) ∨ ∃ j < left, w' = some (k + j) ∧ net (k + j) = .unusable)) := by
  intro left
  induction left with
  | zero =>
    intro k w
    right
    refine ⟨by intro j hj; omega, rfl, w, rfl, Or.inl ⟨rfl, by intro j hj; omega⟩⟩
  | succ left ih =>
    intro k w
    cases hk : net k with
    | opened =>
      left
      refine ⟨0, by omega, by simpa using hk, by intro j hj; omega, ?_, ?_⟩ <;> simp [dialFrom, hk]
    | refused =>
      rcases ih (k + 1) w with ⟨n, h1, h2, h3, h4, h5⟩ | ⟨h1, h2, w', h3, h4⟩
      · left
        refine ⟨n + 1, by omega, by rw [← h2]; congr 1; omega, ?_, ?_, ?_⟩
        · intro j hj
          cases j with
          | zero => simp [hk]
          | succ j => have := h3 j (by omega); rwa [show k + (j + 1) = k + 1 + j by omega]
        · simp only [dialFrom, hk, h4]; congr 1; omega
        · simp only [dialFrom, hk, h5]; rfl
      · right
        refine ⟨?_, ?_, w', ?_, ?_⟩
        · intro j hj
          cases j with
          | zero => simp [hk]
          | succ j => have := h1 j (by omega); rwa [show k + (j + 1) = k + 1 + j by omega]
        · simp only [dialFrom, hk, h2]; rfl
        · simp only [dialFrom, hk, h3]
        · rcases h4 with ⟨rfl, h4⟩ | ⟨j, hj, h5, h6⟩
          · left
            refine ⟨rfl, ?_⟩
            intro j hj
            cases j with
            | zero => simpa using hk
            | succ j => have := h4 j (by omega); rwa [show k + (j + 1) = k + 1 + j by omega]
          · right
            exact ⟨j + 1, by omega, by rw [h5]; congr 1; omega, by rw [← h6]; congr 1; omega⟩
    | unusable =>
      rcases ih (k + 1) (some k) with ⟨n, h1, h2, h3, h4, h5⟩ | ⟨h1, h2, w', h3, h4⟩
      · left
        refine ⟨n + 1, by omega, by rw [← h2]; congr 1; omega, ?_, ?_, ?_⟩
        · intro j hj
          cases j with
          | zero => simp [hk]
          | succ j => have := h3 j (by omega); rwa [show k + (j + 1) = k + 1 + j by omega]
        · simp only [dialFrom, hk, h4]; congr 1; omega
        · simp only [dialFrom, hk, h5]; rfl
      · right
        refine ⟨?_, ?_, w', ?_, ?_⟩
        · intro j hj
          cases j with
          | zero => simp [hk]
          | succ j => have := h1 j (by omega); rwa [show k + (j + 1) = k + 1 + j by omega]
        · simp only [dialFrom, hk, h2]; rfl
        · simp only [dialFrom, hk, h3]
        · right
          rcases h4 with ⟨rfl, h4⟩ | ⟨j, hj, h5, h6⟩
          · exact ⟨0, by omega, rfl, by simpa using hk⟩
          · exact ⟨j + 1, by omega, by rw [h5]; congr 1; omega, by rw [← h6]; congr 1; omega⟩

theorem dials_map (l : List Nat) : dials (l.map .dial) = l := by
  induction l with
  | nil => rfl
  | cons a l ih => simp [ih]

theorem bodies_map (l : List Nat) : bodies (l.map .dial) = [] := by
  induction l with
  | nil => rfl
  | cons a l ih => simp [ih]

theorem closes_map (l : List Nat) : closes (l.map .dial) = [] := by
  induction l with
  | nil => rfl
  | cons a l ih => simp [ih]

/-- Connecting when an attempt succeeds. -/
theorem dial_first {net : Nat → Dial} {k : Nat} (h : FirstOpen net k) :
    dialFrom net maxRetries 0 none = ((List.range (k + 1)).map .dial, .atConn k) := by
  obtain ⟨hk, ho, hn⟩ := h
  rcases dialFrom_cases net maxRetries 0 none with ⟨n, h1, h2, h3, h4, h5⟩ | ⟨h1, h2, w', h3, h4⟩
  · have : n = k := by
      rcases Nat.lt_trichotomy n k with h | h | h
      · exact absurd (by simpa using h2) (hn n h)
      · exact h
      · exact absurd (by simpa using ho) (h3 k h)
    subst this
    rw [Prod.ext_iff]
    exact ⟨by rw [h5, List.range_eq_range'], by rw [h4]; simp⟩
  · exact absurd (by simpa using ho) (h1 k hk)

/-- Connecting when no attempt succeeds. -/
theorem dial_never {net : Nat → Dial} (h : NeverOpen net) :
    ∃ w', dialFrom net maxRetries 0 none = ((List.range 10).map .dial, .atNone w') := by
  rcases dialFrom_cases net maxRetries 0 none with ⟨n, h1, h2, h3, h4, h5⟩ | ⟨h1, h2, w', h3, h4⟩
  · exact absurd (by simpa using h2) (h n h1)
  · exact ⟨w', by rw [Prod.ext_iff]; exact ⟨by rw [h2, List.range_eq_range', maxRetries], h3⟩⟩

theorem first_or_never (net : Nat → Dial) : (∃ k, FirstOpen net k) ∨ NeverOpen net := by
  rcases dialFrom_cases net 10 0 none with ⟨n, h1, h2, h3, _, _⟩ | ⟨h1, _⟩
  · exact Or.inl ⟨n, h1, by simpa using h2, fun j hj => by simpa using h3 j hj⟩
  · exact Or.inr (fun k hk => by simpa using h1 k hk)

theorem first_unique {net : Nat → Dial} {j k : Nat} (hj : FirstOpen net j) (hk : FirstOpen net k) : j = k := by
  rcases Nat.lt_trichotomy j k with h | h | h
  · exact absurd hj.2.1 (hk.2.2 j h)
  · exact h
  · exact absurd hk.2.1 (hj.2.2 k h)

/-! ## Using a connection -/

/-- **C77** (connected). If one of the ten attempts gives a connection and the work on it ends without an exception, then the
work was done exactly once, on that connection, no further attempt was made, the connection is closed afterwards, and the
result is that of the work. -/
theorem c77_connected (net : Nat → Dial) (k : Nat) (hk : FirstOpen net k) (body : Option Nat → σ → σ × Except ε α) (s s' : σ) (v : α)
    (hb : body (some k) s = (s', .ok v)) :
    (withConnection net body s).1 = s' ∧ (withConnection net body s).2.2 = .ok v ∧
    dials (withConnection net body s).2.1 = List.range (k + 1) ∧ bodies (withConnection net body s).2.1 = [some k] ∧
    closes (withConnection net body s).2.1 = [k] := by
  simp only [withConnection, dial_first hk, Gen.value, hb, exitBody, exitOk, Gen.next, dials_append, dials_map, bodies_append,
    bodies_map, closes_append, closes_map, dials_body, bodies_body, closes_body, dials_close, bodies_close, closes_close]
  simp

/-- **C77** (no connection). If none of the ten attempts gives a connection, all ten are made, the work is only asked for what
it does without a connection, and the result is that, be it a value or an exception. -/
theorem c77_unreachable (net : Nat → Dial) (hn : NeverOpen net) (body : Option Nat → σ → σ × Except ε α) (s : σ) :
    (withConnection net body s).1 = (body none s).1 ∧
    (∀ v, (body none s).2 = .ok v → (withConnection net body s).2.2 = .ok v) ∧
    (∀ e, (body none s).2 = .error e → (withConnection net body s).2.2 = .error (.original e)) ∧
    dials (withConnection net body s).2.1 = List.range 10 ∧ bodies (withConnection net body s).2.1 = [none] := by
  obtain ⟨w, hw⟩ := dial_never hn
  have hd : ∀ w, dials (closeWriter w) = [] ∧ bodies (closeWriter w) = [] := by intro w; cases w <;> simp [closeWriter]
  simp only [withConnection, hw, Gen.value]
  refine ⟨trivial, ?_, ?_, ?_, ?_⟩
  · intro v hv; rw [hv]; rfl
  · intro e he; rw [he]; rfl
  · cases (body none s).2 <;>
      simp [exitBody, exitOk, exitWith, Gen.throw, Gen.next, dials_map, (hd w).1]
  · cases (body none s).2 <;>
      simp [exitBody, exitOk, exitWith, Gen.throw, Gen.next, bodies_map, (hd w).2]

/-- **C77** (an exception in the work). If the work raises on the connection, it is not repeated, and the call raises - but
never the exception of the work: always the `RuntimeError` of `asynccontextmanager`, whatever happens in the further attempts
to connect that are made first; at most ten attempts are made altogether, and of all the connections opened exactly one is
closed, the last one. `_partial`: the full statement would say that the
caller gets the exception of the work and that no further attempt is made (negated by `c77_exception_lost`). -/
theorem c77_exception_partial (net : Nat → Dial) (k : Nat) (hk : FirstOpen net k) (body : Option Nat → σ → σ × Except ε α) (s s' : σ)
    (e : ε) (hb : body (some k) s = (s', .error e)) :
    (withConnection net body s).1 = s' ∧ (withConnection net body s).2.2 = .error .generatorDidNotStop ∧
    bodies (withConnection net body s).2.1 = [some k] ∧
    (∃ n, dials (withConnection net body s).2.1 = List.range n ∧ k + 1 ≤ n ∧ n ≤ 10 ∧ (k + 1 < 10 → k + 1 < n)) ∧
    ∃ j, closes (withConnection net body s).2.1 = [j] ∧ k ≤ j ∧ j < 10 ∧ net j ≠ .refused := by
  have hlt := hk.1
  have hrange : ∀ m, List.range (k + 1) ++ List.range' (k + 1) m = List.range (k + 1 + m) := by
    intro m
    rw [List.range_eq_range', List.range_eq_range']
    simpa using (List.range'_append_1 (s := 0) (m := k + 1) (n := m))
  have hd : ∀ w, dials (closeWriter w) = [] ∧ bodies (closeWriter w) = [] := by intro w; cases w <;> simp [closeWriter]
  simp only [withConnection, dial_first hk, Gen.value, hb, exitBody, exitWith, Gen.throw]
  rcases dialFrom_cases net (maxRetries - (k + 1)) (k + 1) (some k) with ⟨n, h1, h2, h3, h4, h5⟩ | ⟨h1, h2, w', h3, h4⟩
  · rw [show dialFrom net (maxRetries - (k + 1)) (k + 1) (some k) = ((List.range' (k + 1) (n + 1)).map .dial, .atConn (k + 1 + n)) from
      Prod.ext_iff.mpr ⟨h5, h4⟩]
    simp only [maxRetries] at h1
    refine ⟨trivial, rfl, ?_, ⟨k + 1 + (n + 1), ?_, by omega, by omega, by omega⟩, k + 1 + n, ?_, by omega, by omega, by
      rw [h2]; decide⟩
    · simp [bodies_map]
    · simp only [dials_append, dials_map, dials_body, dials_close, dials_nil, List.append_nil]
      exact hrange _
    · simp [closes_map]
  · rw [show dialFrom net (maxRetries - (k + 1)) (k + 1) (some k) = ((List.range' (k + 1) (maxRetries - (k + 1))).map .dial, .atNone w') from
      Prod.ext_iff.mpr ⟨h2, h3⟩]
    refine ⟨trivial, rfl, ?_, ⟨k + 1 + (maxRetries - (k + 1)), ?_, by omega, by simp only [maxRetries]; omega, by
      simp only [maxRetries]; omega⟩, ?_⟩
    · simp [bodies_map, (hd w').2]
    · simp only [dials_append, dials_map, dials_body, (hd w').1, List.append_nil]
      exact hrange _
    · rcases h4 with ⟨rfl, _⟩ | ⟨j, hj, rfl, h6⟩
      · exact ⟨k, by simp [closes_map, closeWriter], by omega, hlt, by rw [hk.2.1]; decide⟩
      · simp only [maxRetries] at hj
        exact ⟨k + 1 + j, by simp [closes_map, closeWriter], by omega, by omega, by rw [h6]; decide⟩

/-- **C77** (at most once). Whatever happens while connecting and whatever the work does, the work is asked for exactly once,
and only that has an effect. -/
theorem c77_once (net : Nat → Dial) (body : Option Nat → σ → σ × Except ε α) (s : σ) :
    ∃ w : Option Nat, bodies (withConnection net body s).2.1 = [w] ∧ (withConnection net body s).1 = (body w s).1 ∧
      (∀ k, w = some k ↔ FirstOpen net k) := by
  rcases first_or_never net with ⟨k, hk⟩ | hn
  · refine ⟨some k, ?_, ?_, ?_⟩
    · rcases hb : body (some k) s with ⟨s', v | v⟩
      · exact (c77_exception_partial net k hk body s s' v hb).2.2.1
      · exact (c77_connected net k hk body s s' v hb).2.2.2.1
    · rcases hb : body (some k) s with ⟨s', v | v⟩
      · exact (c77_exception_partial net k hk body s s' v hb).1
      · exact (c77_connected net k hk body s s' v hb).1
    · intro j
      constructor
      · intro h; cases h; exact hk
      · intro hj
        congr 1
        rcases Nat.lt_trichotomy j k with h | h | h
        · exact absurd hj.2.1 (hk.2.2 j h)
        · exact h.symm
        · exact absurd hk.2.1 (hj.2.2 k h)
  · refine ⟨none, (c77_unreachable net hn body s).2.2.2.2, (c77_unreachable net hn body s).1, ?_⟩
    intro k
    constructor
    · intro h; cases h
    · intro h; exact absurd h.2.1 (hn k h.1)

/-- **C77** (the lost exception). The first attempt connects and the work raises `e`: a second connection is opened, on which
nothing is sent, the first one is never closed, and the caller gets another exception. -/
theorem c77_exception_lost (e : ε) (s : σ) :
    withConnection (fun _ => .opened) (fun _ s => (s, (.error e : Except ε α))) s =
      (s, [.dial 0, .body (some 0), .dial 1, .close 1], .error .generatorDidNotStop) := rfl

/-! ## The methods -/

/-- The work of a method is the exchange of C60. -/
theorem methodBody_exchange (c : Codecs T O F A) (handler : Received T O F A → σ → σ × Option (Reply T O)) (r : Request T O F A)
    (links : Nat → Link) (k : Nat) (s : σ) :
    methodBody c handler r links (some k) s =
      ((exchange c handler r { links k with reachable := true } s).1,
        (exchange c handler r { links k with reachable := true } s).2.map some) := by
  simp only [methodBody, exchange, if_true]
  cases r.write c <;> rfl

/-- **C77** (a call). The effect of a call on the server is that of a single exchange (C60) over the connection of the first
successful attempt, or none; it returns what the method makes of the reply, or its value for an unreachable server, and it
raises if the exchange does. -/
theorem c77_call [DecidableEq T] (c : Codecs T O F A) (jobOf : O → T) (handler : Received T O F A → σ → σ × Option (Reply T O))
    (r : Request T O F A) (net : Nat → Dial) (links : Nat → Link) (s : σ) :
    (NeverOpen net ∧ (callMethod c jobOf handler r net links s).1 = s ∧
      (callMethod c jobOf handler r net links s).2.2 = r.unreachable) ∨
    ∃ k, FirstOpen net k ∧
      (callMethod c jobOf handler r net links s).1 = (exchange c handler r { links k with reachable := true } s).1 ∧
      (∀ y, (exchange c handler r { links k with reachable := true } s).2 = .ok y →
        (callMethod c jobOf handler r net links s).2.2 = r.onReply jobOf y) ∧
      (∀ e, (exchange c handler r { links k with reachable := true } s).2 = .error e →
        (callMethod c jobOf handler r net links s).2.2 = .raises) := by
  rcases first_or_never net with ⟨k, hk⟩ | hn
  · right
    refine ⟨k, hk, ?_, ?_, ?_⟩
    · have hb := methodBody_exchange c handler r links k s
      simp only [callMethod]
      rcases h2 : (exchange c handler r { links k with reachable := true } s).2 with e | y
      · rw [h2] at hb
        exact (c77_exception_partial net k hk _ s _ e hb).1
      · rw [h2] at hb
        exact (c77_connected net k hk _ s _ (some y) hb).1
    · intro y hy
      have hb := methodBody_exchange c handler r links k s
      rw [hy] at hb
      simp only [callMethod, (c77_connected net k hk _ s _ (some y) hb).2.1]
      rfl
    · intro e he
      have hb := methodBody_exchange c handler r links k s
      rw [he] at hb
      simp only [callMethod, (c77_exception_partial net k hk _ s _ e hb).2.1]
      rfl
  · left
    refine ⟨hn, ?_, ?_⟩
    · simp only [callMethod, (c77_unreachable net hn _ s).1]
      rfl
    · have := (c77_unreachable net hn (methodBody c handler r links) s).2.1 none rfl
      simp only [callMethod, this]
      rfl

/-- The server's reply `y` conveys the value that the method returns. -/
def Conveys (jobOf : O → T) (r : Request T O F A) : Reply T O → Value T O → Prop
  | .int z, .bool true => z ≠ 0
  | .name j, .bool true => ∃ m g n w q, r = .registerQuery m g n w q ∧ j = jobOf q
  | .int z, .int z' => z = z'
  | .name x, .text x' => x = x'
  | .content x, .text x' => x = x'
  | .obj x, .obj x' => x = x'
  | .bytes (some d), .bytes d' => d = d'
  | _, _ => False

/-- A value that says "yes" or carries something. -/
def Value.Positive : Value T O → Prop
  | .bool true | .int _ | .text _ | .obj _ | .bytes _ => True
  | _ => False

theorem onReply_conveys [DecidableEq T] (jobOf : O → T) (r : Request T O F A) (y : Option (Reply T O))
    (h : (r.onReply jobOf y).Positive) : ∃ y', y = some y' ∧ Conveys jobOf r y' (r.onReply jobOf y) := by
  match y with
  | none => cases r <;> simp [Request.onReply, Value.Positive, flagValue] at h
  | some (.int z) =>
    refine ⟨_, rfl, ?_⟩
    by_cases hz : z = 0 <;> cases r <;> simp_all [Request.onReply, flagValue, Conveys, Value.Positive]
  | some (.name x) =>
    refine ⟨_, rfl, ?_⟩
    cases r with
    | registerQuery m g n w q =>
      by_cases hx : x = jobOf q
      · simp [Request.onReply, Conveys, hx]
      · simp [Request.onReply, Value.Positive, hx] at h
    | registerDataset => exact rfl
    | _ => simp [Request.onReply, Value.Positive, flagValue] at h
  | some (.content x) =>
    refine ⟨_, rfl, ?_⟩
    cases r <;> first
      | (simp [Request.onReply, Value.Positive, flagValue] at h; done)
      | exact rfl
  | some (.obj x) =>
    refine ⟨_, rfl, ?_⟩
    cases r <;> first
      | (simp [Request.onReply, Value.Positive, flagValue] at h; done)
      | exact rfl
  | some (.bytes none) => cases r <;> simp [Request.onReply, Value.Positive, flagValue] at h
  | some (.bytes (some d)) =>
    refine ⟨_, rfl, ?_⟩
    cases r <;> first
      | (simp [Request.onReply, Value.Positive, flagValue] at h; done)
      | exact rfl

/-- **C77** (a positive answer is the server's). Whatever happens while connecting and whatever the network does to the
connections: if a method returns "yes" or carries something, the server has run its handler, exactly once, on what it has read -
the request of the caller or something visibly incomplete - and the handler's reply conveys exactly that value. -/
theorem c77_positive [DecidableEq T] (c : Codecs T O F A) (hc : c.Faithful) (jobOf : O → T)
    (handler : Received T O F A → σ → σ × Option (Reply T O)) (r : Request T O F A) (hr : r.Fits c) (net : Nat → Dial)
    (links : Nat → Link) (s : σ)
    (ha : ∀ v y, (v = r.received ∨ ¬ v.Complete) → (handler v s).2 = some y → r.Answers y ∧ y.Fits c)
    (hp : (callMethod c jobOf handler r net links s).2.2.Positive) :
    ∃ v y, (v = r.received ∨ ¬ v.Complete) ∧ handler v s = ((callMethod c jobOf handler r net links s).1, some y) ∧
      Conveys jobOf r y (callMethod c jobOf handler r net links s).2.2 := by
  rcases c77_call c jobOf handler r net links s with ⟨_, _, h3⟩ | ⟨k, _, h1, h2, h3⟩
  · rw [h3] at hp
    cases r <;> exact absurd hp id
  · rcases he : (exchange c handler r { links k with reachable := true } s).2 with e | y
    · rw [h3 e he] at hp; exact absurd hp id
    · rw [h2 y he] at hp ⊢
      obtain ⟨y', rfl, hy'⟩ := onReply_conveys jobOf r y hp
      rcases c60_any_network c hc handler r hr { links k with reachable := true } s ha with ⟨_, h4⟩ | ⟨v, h4, h5, h6⟩
      · exact absurd he (h4 y')
      · obtain ⟨y'', h7, h8⟩ := h6 y' he
        have : y'' = y' := by
          cases y'' with
          | bytes x => cases x <;> simp [Reply.seen] at h8; exact h8
          | _ => simpa [Reply.seen] using h8
        subst this
        exact ⟨v, y'', h4, Prod.ext_iff.mpr ⟨by rw [h1, h5], h7⟩, hy'⟩

/-- **C77** (an unreachable server). If no attempt gives a connection, the server's state is unchanged and no method reports
success: `False`, `None` or the empty list, and an exception for the metadata of a result and for polling a registration. -/
theorem c77_unreachable_value [DecidableEq T] (c : Codecs T O F A) (jobOf : O → T)
    (handler : Received T O F A → σ → σ × Option (Reply T O)) (r : Request T O F A) (net : Nat → Dial) (hn : NeverOpen net)
    (links : Nat → Link) (s : σ) :
    (callMethod c jobOf handler r net links s).1 = s ∧ ¬ (callMethod c jobOf handler r net links s).2.2.Positive ∧
    ((callMethod c jobOf handler r net links s).2.2 = .raises ↔ (∃ j, r = .resultMeta j) ∨ ∃ j, r = .datasetStatus j) := by
  rcases c77_call c jobOf handler r net links s with ⟨_, h2, h3⟩ | ⟨k, hk, _⟩
  · rw [h3]
    refine ⟨h2, by cases r <;> exact id, ?_⟩
    cases r <;> simp [Request.unreachable]
  · exact absurd hk.2.1 (hn k hk.1)

/-- **C77** (no answer). If the server closes the connection without an answer, the method does not report success; only the
metadata call raises (it unpacks the missing answer), all other methods return `False` or `None`. -/
theorem c77_no_answer [DecidableEq T] (c : Codecs T O F A) (jobOf : O → T)
    (handler : Received T O F A → σ → σ × Option (Reply T O)) (r : Request T O F A) (net : Nat → Dial) (k : Nat)
    (hk : FirstOpen net k) (links : Nat → Link) (s : σ)
    (hn : (exchange c handler r { links k with reachable := true } s).2 = .ok none) :
    ¬ (callMethod c jobOf handler r net links s).2.2.Positive ∧
    ((∃ j, r = .resultMeta j) → (callMethod c jobOf handler r net links s).2.2 = .raises) ∧
    ((¬ ∃ j, r = .resultMeta j) → (callMethod c jobOf handler r net links s).2.2 = .bool false ∨
      (callMethod c jobOf handler r net links s).2.2 = .nothing) := by
  have hone : ∀ j, FirstOpen net j → j = k := fun j hj => first_unique hj hk
  rcases c77_call c jobOf handler r net links s with ⟨h1, _, _⟩ | ⟨j, hj, _, h2, _⟩
  · exact absurd hk.2.1 (h1 k hk.1)
  · obtain rfl := hone j hj
    rw [h2 none hn]
    refine ⟨by cases r <;> exact id, ?_, ?_⟩
    · rintro ⟨i, rfl⟩; rfl
    · intro hr
      cases r <;> first
        | exact absurd ⟨_, rfl⟩ hr
        | exact Or.inl rfl
        | exact Or.inr rfl

/-- **C77** (a lost restore). `restore_checkpoint` returns `None`, as it does on success, when the server cannot be reached and
nothing is restored, and also when the server closes the connection without an answer. -/
theorem c77_restore_silent [DecidableEq T] (c : Codecs T O F A) (jobOf : O → T)
    (handler : Received T O F A → σ → σ × Option (Reply T O)) (job id : T) (net : Nat → Dial) (links : Nat → Link) (s : σ) :
    ((callMethod c jobOf handler (.restore job id) net links s).2.2 = .nothing ∨
      (callMethod c jobOf handler (.restore job id) net links s).2.2 = .raises) ∧
    (NeverOpen net → (callMethod c jobOf handler (.restore job id) net links s).1 = s ∧
      (callMethod c jobOf handler (.restore job id) net links s).2.2 = .nothing) := by
  rcases c77_call c jobOf handler (.restore job id) net links s with ⟨_, h2, h3⟩ | ⟨k, hk, h1, h2, h3⟩
  · exact ⟨Or.inl h3, fun _ => ⟨h2, h3⟩⟩
  · refine ⟨?_, fun hn => absurd hk.2.1 (hn k hk.1)⟩
    rcases he : (exchange c handler (.restore job id) { links k with reachable := true } s).2 with e | y
    · exact Or.inr (h3 e he)
    · exact Or.inl (h2 y he)

/-- **C77** (idle connections). A connection on which nothing is sent - as the further attempts after an exception open them -
changes nothing at the server, provided that the server does nothing for an unknown task. -/
theorem c77_idle (c : Codecs T O F A) (handler : Received T O F A → σ → σ × Option (Reply T O))
    (hu : ∀ t s, (handler (.unknown t) s).1 = s) (avail : Nat → Option Nat) (s : σ) :
    (serveRequest c handler ⟨[], avail, 0⟩ s).1 = s := by
  have h0 : ∀ v, (readRequest c ⟨[], avail, 0⟩).1 = .ok v → v = .unknown none := by
    intro v hv
    unfold readRequest Reader.bind at hv
    have ht := (refines_readInt idBytes).timeout ⟨[], avail, 0⟩
    rcases hp : readInt idBytes ⟨[], avail, 0⟩ with ⟨x, s'⟩
    rw [hp] at ht hv
    have hn : (plainInt idBytes ([] : List Byte)).1 = .ok none := by
      simp [plainInt, Plain.bind, plainBytes, takeBytes, idBytes]
    rcases ht with h | ⟨h, _⟩
    · simp only at h; subst h; cases hv
    · simp only at h
      rw [hn] at h
      subst h
      injection hv with hv
      exact hv.symm
  unfold serveRequest
  split
  · rfl
  · rename_i v hv
    rw [h0 v hv]
    split
    · exact hu none s
    · split
      · exact hu none s
      · exact hu none s

/-! ## Concrete cases -/

/-- Two attempts fail, the third one gives a connection: the work is done there. -/
example : withConnection (fun k => if k = 2 then .opened else if k = 1 then .unusable else .refused)
    (fun k (s : Nat) => (s + 1, (.ok k : Except Unit (Option Nat)))) 5 =
      (6, [.dial 0, .dial 1, .dial 2, .body (some 2), .close 2], .ok (some 2)) := rfl

example : FirstOpen (fun k => if k = 2 then .opened else if k = 1 then .unusable else .refused) 2 :=
  ⟨by decide, rfl, by intro j hj; have : j = 0 ∨ j = 1 := by omega
                      rcases this with rfl | rfl <;> decide⟩

/-- The exception of the work is lost after all the remaining attempts have failed; the connection is closed then. -/
example : withConnection (fun k => if k = 7 then .opened else .refused)
    (fun k (s : Nat) => (s + 1, (.error k : Except (Option Nat) Unit))) 5 =
      (6, ((List.range 8).map ConnEv.dial) ++ [.body (some 7), .dial 8, .dial 9, .close 7], .error .generatorDidNotStop) := rfl

/-- Asking for a dataset that exists, over a connection of the second attempt. -/
example : (callMethod byteCodecs id
    (fun v (s : Nat) => match v with | .datasetExists _ => (s + 1, some (.int 1)) | _ => (s, none))
    (.datasetExists [100]) (fun k => if k = 1 then .opened else .refused)
    (fun _ => ⟨false, none, fun _ => some 3, none, fun _ => some 3⟩) 0) =
      (1, [.dial 0, .dial 1, .body (some 1), .close 1], .bool true) := by decide +kernel

end Mixtera.Net
