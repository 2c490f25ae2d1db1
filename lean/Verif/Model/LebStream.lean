import Verif.Basic
/-! Model of util/include/Ab/leb128.hpp: reading LEB128 numbers from a `std::istream`. -/
namespace Ab.LebStream

/-- A `ReaderInput` (leb128.hpp:20-48) over a `std::istream`: what is left to read, whether the stream is at
end-of-file (a read was attempted past the end), and the offset. -/
structure In where
  rest   : List Byte
  eof    : Bool
  offset : Nat
deriving Repr, DecidableEq

/-- A stream just opened. -/
def In.start (s : List Byte) : In := ⟨s, false, 0⟩

/-- `get` (leb128.hpp:25-29): at the end `istream::get` returns EOF (-1), which becomes 0xff, sets
end-of-file, and counts no character. -/
def In.get (i : In) : In × Byte :=
  if i.eof then (i, 0xff#8)
  else match i.rest with
    | [] => ({ i with eof := true }, 0xff#8)
    | b :: bs => (⟨bs, false, i.offset + 1⟩, b)

/-- The loop of `uleb128` and `leb128` (leb128.hpp:67-75, 98-105): `byte & 0x7f` shifted and or-ed in, until
a byte has no flag, the shift reaches 64, or the stream is at its end. Returns the result, the shift and the
last byte. -/
def loop : Nat → In → U64 → Nat → Outcome (In × U64 × Nat × Byte)
  | 0, _, _, _ => .fuel
  | fuel + 1, i, result, shift =>
    if 63 < shift then .throw "Could not decode number"
    else
      let (i, byte) := i.get
      let result := result ||| ((byte &&& 0x7f#8).zeroExtend 64 <<< shift)
      let shift := shift + 7
      if byte &&& 0x80#8 ≠ 0#8 ∧ shift < 64 ∧ i.eof = false then loop fuel i result shift
      else .ok (i, result, shift, byte)

/-- `uleb128` (leb128.hpp:90-108). The loop runs at most ten times. -/
def uleb128 (i : In) : Outcome (In × U64) := do
  let (i, r, _, _) ← loop 11 i 0#64 0
  pure (i, r)

/-- `leb128` (leb128.hpp:58-82). `~0 << shift` is undefined when `shift` is 64 or more. -/
def leb128 (i : In) : Outcome (In × U64) := do
  let (i, r, shift, byte) ← loop 11 i 0#64 0
  if byte &&& 0x40#8 ≠ 0#8 then
    if shift < 64 then pure (i, r ||| (BitVec.allOnes 64 <<< shift))
    else .ub "shift too wide"
  else pure (i, r)

/-- `ReaderInput::read` (leb128.hpp:31-39) with `n` bytes: throws when fewer are left (they are consumed and
the stream is at its end). -/
def In.read (i : In) (n : Nat) : In × Outcome (List Byte) :=
  if i.eof then (i, if n = 0 then .ok [] else .throw "didn't read all the bytes like we were hoping")
  else if n ≤ i.rest.length then (⟨i.rest.drop n, false, i.offset + n⟩, .ok (i.rest.take n))
  else (⟨[], true, i.offset⟩, .throw "didn't read all the bytes like we were hoping")

/-- `readNumber<std::uint32_t>` (leb128.hpp:50-56): four bytes, little endian. -/
def readU32 (i : In) : In × Outcome U32 :=
  match i.read 4 with
  | (i, .ok bs) => (i, .ok (BitVec.ofNat 32 (bs.foldr (fun b acc => b.toNat + 256 * acc) 0)))
  | (i, .throw m) => (i, .throw m)
  | (i, .trap m) => (i, .trap m)
  | (i, .ub m) => (i, .ub m)
  | (i, .fuel) => (i, .fuel)

end Ab.LebStream
