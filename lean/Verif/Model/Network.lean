import Mathlib.Tactic.Ring
import Verif.Model.Utils

/-!
# Reading and writing on a connection

Models /repo/mixtera/network/network_utils.py. A connection is what the peer has written and not yet been read (`data`;
the peer closes the connection after it) together with the behaviour of the transport: at the `k`-th read, counted from
the beginning, `avail k = some c` says that `c + 1` bytes (or all that is left, if that is less) have arrived, and
`avail k = none` that nothing arrives within the timeout. `asyncio.StreamReader.read(n)` for `n > 0` returns between one
and `n` of the bytes that have arrived and `b""` only at the end of the stream.
-/

namespace Mixtera.Net

/-- A byte. -/
abbrev Byte := Fin 256

/-- The exceptions of this layer. -/
inductive NetErr | connection | timeout | overflow | assertion | decode | outOfFuel
  deriving DecidableEq, Repr

/-- The reading end of a connection. -/
structure Stream where
  data : List Byte
  avail : Nat → Option Nat
  tick : Nat

/-- A coroutine that reads. -/
abbrev Reader (α : Type) := Stream → Except NetErr α × Stream

variable {α β : Type}

/-- `return x`. -/
def Reader.pure (x : α) : Reader α := fun s => (.ok x, s)

/-- `raise e`. -/
def Reader.raise (e : NetErr) : Reader α := fun s => (.error e, s)

/-- Continue with the awaited result; an exception passes through. -/
def Reader.bind (p : Reader α) (f : α → Reader β) : Reader β := fun s =>
  match p s with
  | (.ok x, s') => f x s'
  | (.error e, s') => (.error e, s')

/-- `asyncio.wait_for(reader.read(n), timeout)` with `n > 0` (network_utils.py:34). -/
def Stream.read (n : Nat) : Reader (List Byte) := fun s =>
  match s.avail s.tick with
  | none => (.error .timeout, { s with tick := s.tick + 1 })
  | some c => (.ok (s.data.take (min n (c + 1))),
      { s with data := s.data.drop (min n (c + 1)), tick := s.tick + 1 })

/-- What `read_bytes` does with a chunk (network_utils.py:35-46): an empty chunk ends the loop. -/
def onChunk (buffer chunk : List Byte) (continue_ : List Byte → Reader (Option (List Byte))) :
    Reader (Option (List Byte)) :=
  if chunk = [] then
    if buffer ++ chunk = [] then Reader.pure none else Reader.raise .connection
  else continue_ (buffer ++ chunk)

/-- The loop `while len(buffer) < num_bytes` of `read_bytes` (network_utils.py:26-46). The fuel is the number of bytes
asked for: every turn gets at least one of them, so it is never used up. -/
def readLoop (numBytes : Nat) : Nat → List Byte → Reader (Option (List Byte))
  | 0, buffer => if buffer.length < numBytes then Reader.raise .outOfFuel else Reader.pure (some buffer)
  | fuel + 1, buffer =>
    if buffer.length < numBytes then
      Reader.bind (Stream.read (numBytes - buffer.length)) fun chunk =>
        onChunk buffer chunk (readLoop numBytes fuel)
    else Reader.pure (some buffer)

/-- `read_bytes` (network_utils.py:10-48). For a negative `num_bytes` the loop does not run. -/
def readBytes (numBytes : Int) : Reader (Option (List Byte)) :=
  readLoop numBytes.toNat numBytes.toNat []

/-- The unsigned big-endian value of bytes (`int.from_bytes(.., "big")`). -/
def fromBytes (l : List Byte) : Nat := l.foldl (fun acc b => acc * 256 + b.val) 0

/-- The `n` lowest bytes of a number, big-endian. -/
def lowBytes : Nat → Nat → List Byte
  | 0, _ => []
  | n + 1, x => lowBytes n (x / 256) ++ [Fin.ofNat 256 x]

/-- `int.from_bytes(.., "big", signed=True)`. -/
def fromBytesSigned (l : List Byte) : Int :=
  if 2 * fromBytes l < 256 ^ l.length then (fromBytes l : Int) else (fromBytes l : Int) - 256 ^ l.length

/-- `int.to_bytes(n, "big")` of a non-negative number: raises `OverflowError` if it does not fit. -/
def toBytes (n x : Nat) : Except NetErr (List Byte) :=
  if x < 256 ^ n then .ok (lowBytes n x) else .error .overflow

/-- `int.to_bytes(n, "big", signed=True)` (two's complement). -/
def toBytesSigned (n : Nat) (x : Int) : Except NetErr (List Byte) :=
  if -(256 ^ n : Int) ≤ 2 * x ∧ 2 * x < 256 ^ n then .ok (lowBytes n (x % 256 ^ n).toNat) else .error .overflow

/-- `read_int` (network_utils.py:113-130): the header is read as a signed number. -/
def readInt (numBytes : Nat) : Reader (Option Int) :=
  Reader.bind (readBytes numBytes) fun r => Reader.pure (r.map fromBytesSigned)

/-- `write_int` (network_utils.py:133-144): what is written. -/
def writeInt (x : Int) (numBytes : Nat) : Except NetErr (List Byte) := toBytesSigned numBytes x

/-- A length header, written unsigned, and the bytes (network_utils.py:76-77, 175-176, 192-193). -/
def writeSized (data : List Byte) (sizeBytes : Nat) : Except NetErr (List Byte) := do
  let header ← toBytes sizeBytes data.length
  return header ++ data

/-- `write_bytes_obj` (network_utils.py:51-81). -/
def writeBytesObj (data : Option (List Byte)) (sizeBytes : Nat) : Except NetErr (List Byte) :=
  match data with
  | none => toBytes sizeBytes 0
  | some d => writeSized d sizeBytes

/-- `read_bytes_obj` after the header (network_utils.py:106-109). -/
def bytesObjBody : Option Int → Reader (Option (List Byte))
  | none => Reader.pure none
  | some size => if size = 0 then Reader.pure none else readBytes size

/-- `read_bytes_obj` (network_utils.py:84-110). -/
def readBytesObj (sizeBytes : Nat) : Reader (Option (List Byte)) :=
  Reader.bind (readInt sizeBytes) bytesObjBody

/-- How a kind of value is written as bytes: `str.encode`/`decode("utf-8")`, `dill.dumps`/`loads`, `struct.pack(">d")`,
`np.save`/`np.load`. Their correctness is assumed where it is needed, as a property of this structure. -/
structure Codec (α : Type) where
  encode : α → List Byte
  decode : List Byte → Except NetErr α

/-- Decoding gives back what was encoded. -/
def Codec.Faithful (c : Codec α) : Prop := ∀ x, c.decode (c.encode x) = .ok x

/-- Lifting a decoding result. -/
def Reader.lift : Except NetErr α → Reader α
  | .ok x => Reader.pure x
  | .error e => Reader.raise e

/-- The decoding of what was read; `None` if nothing was (network_utils.py:159-161, 210-213). -/
def decodeRead (c : Codec α) : Option (List Byte) → Reader (Option α)
  | none => Reader.pure none
  | some d => Reader.bind (Reader.lift (c.decode d)) fun x => Reader.pure (some x)

/-- After the header of a string or a pickled object. -/
def codedBody (c : Codec α) : Option Int → Reader (Option α)
  | none => Reader.pure none
  | some size => Reader.bind (readBytes size) (decodeRead c)

/-- `read_utf8_string` and `read_pickeled_object` (network_utils.py:147-161, 199-213). -/
def readCoded (c : Codec α) (sizeBytes : Nat) : Reader (Option α) :=
  Reader.bind (readInt sizeBytes) (codedBody c)

/-- `write_utf8_string` and `write_pickeled_object` (network_utils.py:164-179, 182-196). -/
def writeCoded (c : Codec α) (x : α) (sizeBytes : Nat) : Except NetErr (List Byte) := writeSized (c.encode x) sizeBytes

/-- After the eight bytes of a float (network_utils.py:247-252). -/
def floatBody (c : Codec α) : Option (List Byte) → Reader (Option α)
  | none => Reader.pure none
  | some d => if d.length = 8 then decodeRead c (some d) else Reader.pure none

/-- `read_float` (network_utils.py:233-252). -/
def readFloat (c : Codec α) : Reader (Option α) := Reader.bind (readBytes 8) (floatBody c)

/-- `write_float` (network_utils.py:216-230). -/
def writeFloat (c : Codec α) (x : α) : Except NetErr (List Byte) := .ok (c.encode x)

/-- `write_numpy_array` (network_utils.py:255-270). -/
def writeArray (c : Codec α) (idBytes sizeBytes : Nat) : Option α → Except NetErr (List Byte)
  | none => writeInt 0 idBytes
  | some x => do
    let flag ← writeInt 1 idBytes
    let body ← writeBytesObj (some (c.encode x)) sizeBytes
    return flag ++ body

/-- The array after its bytes were read (network_utils.py:279-281): `assert result is not None`. -/
def arrayBody (c : Codec α) : Option (List Byte) → Reader (Option α)
  | none => Reader.raise .assertion
  | some d => decodeRead c (some d)

/-- After the flag (network_utils.py:276-278). A closed connection (`None`) is not equal to zero. -/
def arrayFlag (c : Codec α) (sizeBytes : Nat) (flag : Option Int) : Reader (Option α) :=
  if flag = some 0 then Reader.pure none else Reader.bind (readBytesObj sizeBytes) (arrayBody c)

/-- `read_numpy_array` (network_utils.py:273-281). -/
def readArray (c : Codec α) (idBytes sizeBytes : Nat) : Reader (Option α) :=
  Reader.bind (readInt idBytes) (arrayFlag c sizeBytes)

/-- `NUM_BYTES_FOR_IDENTIFIERS` (mixtera/network/__init__.py). -/
def idBytes : Nat := 8

/-- `NUM_BYTES_FOR_SIZES` (mixtera/network/__init__.py). -/
def sizeBytes : Nat := 16

end Mixtera.Net
