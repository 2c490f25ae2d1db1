import Verif.Basic

/-!
Model of the variable-length integer code:
* writer: `append_varuint` (util/include/Ab/VarInt.hpp:19-50)
* reader: `Decoder` (core/src/ab-core-Loading.cpp:16-143)

A `ByteBuffer` that is only appended to is modelled by the list of bytes appended to it
(the buffer itself is modelled in `Verif/Model/ByteBuffer.lean`, where that view is justified).
A `Decoder` is the byte span it was created with plus the offset of `position_` from `begin()`.
-/

namespace Ab

/-- `append_varuint<N,T>` (VarInt.hpp:19-36): the bytes it appends for `value`.
`w` is the width of `T`; `N` is not used by the code. -/
def appendVaruint {w : Nat} (value : BitVec w) : List Byte :=
  let byte : Byte := value.setWidth 8 &&& 0x7f#8
  let value' := value >>> 7
  if _h : value' ≠ 0#w then
    (byte ||| 0x80#8) :: appendVaruint value'
  else
    [byte]
termination_by value.toNat
decreasing_by
  have h1 : (value >>> 7).toNat ≠ 0 := by
    intro h; apply _h; apply BitVec.eq_of_toNat_eq; rw [BitVec.toNat_ofNat, Nat.zero_mod]; exact h
  have h2 : (value >>> 7).toNat = value.toNat / 128 := by
    simp [BitVec.toNat_ushiftRight, Nat.shiftRight_eq_div_pow]
  show (value >>> 7).toNat < value.toNat
  rw [h2] at h1 ⊢
  omega

/-- `append_varuint32` (VarInt.hpp:46-48). -/
def appendVaruint32 (value : U32) : List Byte := appendVaruint value

/-- `append_varuint7` (VarInt.hpp:40-42): the parameter is a `std::uint8_t`. -/
def appendVaruint7 (value : BitVec 8) : List Byte := appendVaruint value

/-- `Decoder::read<T>` for a one-byte `T` (Loading.cpp:129-138): bounds check, then the load.
Simplification: `end() - sizeof(T) < position_` is taken as `size < position + sizeof(T)`
(no pointer wrap-around below address 0). A load outside the span is `ub`. -/
def readByte (bs : List Byte) (pos : Nat) : Outcome (Byte × Nat) :=
  if bs.length < pos + 1 then
    .throw "Read past end of buffer"
  else
    match bs[pos]? with
    | some b => .ok (b, pos + 1)
    | none => .ub "load outside the module bytes"

/-- `Decoder::read<std::uint32_t>` (Loading.cpp:109, 129-138): little-endian load of 4 bytes. -/
def readU32 (bs : List Byte) (pos : Nat) : Outcome (U32 × Nat) :=
  if bs.length < pos + 4 then
    .throw "Read past end of buffer"
  else
    match bs[pos]?, bs[pos+1]?, bs[pos+2]?, bs[pos+3]? with
    | some b0, some b1, some b2, some b3 => .ok (b3 ++ b2 ++ b1 ++ b0, pos + 4)
    | _, _, _, _ => .ub "load outside the module bytes"

/-- The loop of `Decoder::read_varu<N,T>` (Loading.cpp:89-96); `w` is the width of `T`. -/
def readVaruLoop (N w : Nat) (bs : List Byte) (pos shift : Nat) (result : BitVec w) :
    Outcome (BitVec w × Nat) :=
  if _h : N ≤ shift then
    .throw "Number exeeded maximum size"
  else
    match readByte bs pos with
    | .ok (byte, pos) =>
      let result := result ||| ((byte &&& 0x7f#8).setWidth w <<< shift)
      if (byte &&& 0x80#8) ≠ 0#8 then
        readVaruLoop N w bs pos (shift + 7) result
      else
        .ok (result, pos)
    | .throw m => .throw m
    | .trap m => .trap m
    | .ub m => .ub m
    | .fuel => .fuel
termination_by N - shift

/-- `Decoder::read_varu<N,T>` (Loading.cpp:77-99). -/
def readVaru (N w : Nat) (bs : List Byte) (pos : Nat) : Outcome (BitVec w × Nat) :=
  readVaruLoop N w bs pos 0 0#w

/-- `Decoder::read_varu32` (Loading.cpp:101). -/
def readVaru32 (bs : List Byte) (pos : Nat) : Outcome (U32 × Nat) := readVaru 32 32 bs pos

/-- `Decoder::read_varu7` (Loading.cpp:103). -/
def readVaru7 (bs : List Byte) (pos : Nat) : Outcome (BitVec 8 × Nat) := readVaru 7 8 bs pos

/-- The loop of `Decoder::read_vari<N,T>` (Loading.cpp:53-60); `w` is the width of `T`.
`(byte & data_mask) << shift` is computed in `int` (32 bits) and then converted to `T`
(`result |= …`); shifting an `int` by 32 or more would be `ub`, and cannot happen since `shift < N ≤ 32`
for the two instantiations in the file. Left shifts of signed values wrap (the GCC/Clang behaviour and
C++20; strictly, C++17 leaves some of them undefined). Returns the last byte, the final shift, the
result and the position. -/
def readVariLoop (N w : Nat) (bs : List Byte) (pos shift : Nat) (result : BitVec w) :
    Outcome ((Byte × Nat) × (BitVec w × Nat)) :=
  if _h : N ≤ shift then
    .throw "Number exeeding maximum size"
  else
    match readByte bs pos with
    | .ok (byte, pos) =>
      if 32 ≤ shift then .ub "shift count not less than the width of int" else
      let result := result ||| (((byte &&& 0x7f#8).setWidth 32 <<< shift).setWidth w)
      if (byte &&& 0x80#8) ≠ 0#8 then
        readVariLoop N w bs pos (shift + 7) result
      else
        .ok ((byte, shift + 7), (result, pos))
    | .throw m => .throw m
    | .trap m => .trap m
    | .ub m => .ub m
    | .fuel => .fuel
termination_by N - shift

/-- `Decoder::read_vari<N,T>` (Loading.cpp:39-67).
`std::numeric_limits<T>::max() << shift` is an `int` shift (both instantiations have `T` at most
`int`), so a shift count of 32 or more is `ub`. -/
def readVari (N w : Nat) (bs : List Byte) (pos : Nat) : Outcome (BitVec w × Nat) := do
  let ((byte, shift), (result, pos)) ← readVariLoop N w bs pos 0 0#w
  if (byte &&& 0x40#8) ≠ 0#8 then
    if 32 ≤ shift then
      .ub "shift count not less than the width of int"
    else
      .ok (result ||| (((BitVec.intMax w).setWidth 32 <<< shift).setWidth w), pos)
  else
    .ok (result, pos)

/-- `Decoder::read_vari32` (Loading.cpp:69). -/
def readVari32 (bs : List Byte) (pos : Nat) : Outcome (U32 × Nat) := readVari 32 32 bs pos

/-- `Decoder::read_vari7` (Loading.cpp:71). -/
def readVari7 (bs : List Byte) (pos : Nat) : Outcome (BitVec 8 × Nat) := readVari 7 8 bs pos

end Ab
