import Verif.Model.Types
/-!
Model of small utilities: SizeP2.hpp, StringSpan.hpp, Span.hpp (all in util/include/Ab).
`hash(std::size_t)` and `mix` are in Model/Types.lean.
-/
namespace Ab.Util

/-- `SizeP2` (SizeP2.hpp:11-34): its data member, a `std::uint8_t`. -/
structure SizeP2 where
  exponent : Byte
deriving Repr, DecidableEq

/-- A shift of a `std::size_t` by `n`: undefined when `n` is at least the width (C++17 and C++20 [expr.shift]/1). -/
def shl (x : U64) (n : Nat) : Outcome U64 := if n < 64 then .ok (x <<< n) else .ub "shift too wide"
/-- The same, to the right. -/
def shr (x : U64) (n : Nat) : Outcome U64 := if n < 64 then .ok (x >>> n) else .ub "shift too wide"

/-- `get` (SizeP2.hpp:15). -/
def SizeP2.get (s : SizeP2) : Outcome U64 := shl 1#64 s.exponent.toNat
/-- `modmask` (19). -/
def SizeP2.modmask (s : SizeP2) : Outcome U64 := do
  let x ← s.get
  pure (x - 1#64)
/-- `mod2` (17). -/
def SizeP2.mod2 (s : SizeP2) : Outcome U64 := do
  let x ← s.get
  pure (x &&& 1#64)
/-- `log2` (22). -/
def SizeP2.log2 (s : SizeP2) : U64 := s.exponent.zeroExtend 64
/-- `pow` (25): `1 << (exponent_ + n - 1)`; the left operand is an `int`, so the shift is undefined from 32
on; at 31 the value 2^31 is converted to `int` (C++17 and C++20 [expr.shift]/2), which wraps to -2^31, and that is
converted to `size_t`. -/
def SizeP2.pow (s : SizeP2) (n : U64) : Outcome U64 :=
  let k := (s.exponent.zeroExtend 64 + n - 1#64).toNat
  if k < 31 then .ok (BitVec.ofNat 64 (2 ^ k))
  else if k = 31 then .ok (BitVec.ofInt 64 (-2^31))
  else .ub "shift of int"
/-- `operator*` (36-38). -/
def mul (a : U64) (s : SizeP2) : Outcome U64 := shl a s.log2.toNat
/-- `operator/` (40-42). -/
def div (a : U64) (s : SizeP2) : Outcome U64 := shr a s.log2.toNat
/-- `operator%` (44-46). -/
def mod (a : U64) (s : SizeP2) : Outcome U64 := do
  let m ← s.modmask
  pure (a &&& m)

/-- `std::strncmp(a, b, n)`, its sign only as zero or not: characters are compared up to the first
difference, the first NUL, or `n` characters. Reading past the characters given is undefined. -/
def strncmp : Nat → List Byte → List Byte → Outcome Bool
  | 0, _, _ => .ok true
  | n + 1, a :: as, b :: bs =>
    if a ≠ b then .ok false
    else if a = 0#8 then .ok true
    else strncmp n as bs
  | _ + 1, _, _ => .ub "read past the end"

/-- `StringSpan::operator==(const StringSpan&)` (StringSpan.hpp:31-36); the spans' characters are given. -/
def spanEq (a b : List Byte) : Outcome Bool :=
  if a.length ≠ b.length then .ok false
  else strncmp (min a.length b.length) a b

/-- `strlen`: the number of characters before the NUL; undefined without one. -/
def strlen : List Byte → Outcome Nat
  | [] => .ub "read past the end"
  | b :: bs => if b = 0#8 then .ok 0 else do
    let n ← strlen bs
    pure (n + 1)

/-- `StringSpan::operator==(const char*)` (StringSpan.hpp:42-49); `s` is the memory from the pointer on. -/
def spanEqCstr (a s : List Byte) : Outcome Bool := do
  let n ← strlen s
  if a.length ≠ n then pure false
  else do
    let m ← strlen s
    strncmp (min a.length m) a s

/-- A `Span` (Span.hpp:10-101) as addresses: pointer and number of elements of one byte. -/
structure Span where
  value : Nat
  length : Nat
deriving Repr, DecidableEq

/-- `operator<` (Span.hpp:79-81). -/
def Span.lt (a b : Span) : Bool := a.value + a.length < b.value
/-- `operator==` (69-71). -/
def Span.eq (a b : Span) : Bool := a.value == b.value && a.length == b.length

/-- `std::strncmp(a, b, n)` with its sign: -1, 0 or 1. `char` is signed, but `strncmp` compares as `unsigned char`. -/
def strncmpSign : Nat → List Byte → List Byte → Outcome Int
  | 0, _, _ => .ok 0
  | n + 1, a :: as, b :: bs =>
    if a.toNat < b.toNat then .ok (-1)
    else if b.toNat < a.toNat then .ok 1
    else if a = 0#8 then .ok 0
    else strncmpSign n as bs
  | _ + 1, _, _ => .ub "read past the end"

/-- `StringSpan::compare(const StringSpan&)` (StringSpan.hpp:28-30, 19-22). -/
def spanCompare (a b : List Byte) : Outcome Int := strncmpSign (min a.length b.length) a b

/-- `StringSpan::compare(const char*)` (StringSpan.hpp:24-26); `s` is the memory from the pointer on. -/
def spanCompareCstr (a s : List Byte) : Outcome Int := strncmpSign a.length a s

end Ab.Util
