import Verif.Basic
/-!
Memory sizes (util/include/Ab/Bytes.hpp:12-35, 53-67).
-/
namespace Ab.Units

/-- An integer type: signed or not, and how many bits. Standing for `signed char`, `short`, `int`, `long` and their
unsigned counterparts, as they are on x86-64. -/
structure IntTy where
  signed : Bool
  bits : Nat
deriving DecidableEq, Repr

/-- `std::numeric_limits<T>::min()`. -/
def IntTy.lo (t : IntTy) : Int := if t.signed then -2^(t.bits - 1) else 0
/-- `std::numeric_limits<T>::max()`. -/
def IntTy.hi (t : IntTy) : Int := if t.signed then 2^(t.bits - 1) - 1 else 2^t.bits - 1

/-- Conversion of a number to the type: the value modulo `2^bits` in its range (for signed types as g++ and clang
define it). -/
def IntTy.convert (t : IntTy) (v : Int) : Int := if t.signed then v.bmod (2^t.bits) else v % 2^t.bits

/-- `int`. -/
def int : IntTy := ⟨true, 32⟩

/-- The type `1024 * n` is computed in, for `n` of type `t` ([expr.arith.conv]): types narrower than `int` are promoted
to `int`; otherwise the other operand, an `int`, is converted to `t`. -/
def common (t : IntTy) : IntTy := if t.bits < 32 then int else t

/-- A product in the type: unsigned arithmetic wraps, signed overflow is undefined. -/
def mul (t : IntTy) (a b : Int) : Outcome Int :=
  if t.signed then
    if t.lo ≤ a * b ∧ a * b ≤ t.hi then .ok (a * b) else .ub "signed overflow"
  else .ok (t.convert (a * b))

/-- `1024 * n`, returned as a `T`. -/
def times1024 (t : IntTy) (n : Int) : Outcome Int := do
  let v ← mul (common t) 1024 n
  pure (t.convert v)

/-- `bytes` (Bytes.hpp:12-15). -/
def bytes (_ : IntTy) (n : Int) : Outcome Int := .ok n
/-- `kibibytes` (Bytes.hpp:17-20). -/
def kibibytes (t : IntTy) (n : Int) : Outcome Int := times1024 t n
/-- `mebibytes` (Bytes.hpp:22-25). -/
def mebibytes (t : IntTy) (n : Int) : Outcome Int := do times1024 t (← kibibytes t n)
/-- `gibibytes` (Bytes.hpp:27-30). -/
def gibibytes (t : IntTy) (n : Int) : Outcome Int := do times1024 t (← mebibytes t n)
/-- `tebibytes` (Bytes.hpp:32-35). -/
def tebibytes (t : IntTy) (n : Int) : Outcome Int := do times1024 t (← gibibytes t n)

/-- `unsigned long long`. -/
def ull : IntTy := ⟨false, 64⟩

/-- `operator"" _B` (Bytes.hpp:53-55). -/
def litB (n : Int) : Outcome Int := bytes ull n
/-- `operator"" _KiB` (Bytes.hpp:57-59). -/
def litKiB (n : Int) : Outcome Int := kibibytes ull n
/-- `operator"" _MiB` (Bytes.hpp:61-63). -/
def litMiB (n : Int) : Outcome Int := mebibytes ull n
/-- `operator"" _GiB` (Bytes.hpp:65-67). -/
def litGiB (n : Int) : Outcome Int := gibibytes ull n

end Ab.Units
