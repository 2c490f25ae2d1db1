import Verif.Spec.EdnGrammar
import Verif.Spec.Edn
/-! The special values of `double` (IEEE 754, binary64), for C100 and C101. -/
namespace Ab.Spec

open Edn

/-- Zero of either sign. -/
def IsZero (v : BitVec 64) : Prop := v.toNat % 2^63 = 0

/-- Infinity of either sign. -/
def IsInf (v : BitVec 64) : Prop := v.toNat % 2^63 = 2047 * 2^52

/-- Neither infinity nor NaN. -/
def IsFinite (v : BitVec 64) : Prop := v.toNat / 2^52 % 2^11 ≠ 2^11 - 1

instance (v) : Decidable (IsZero v) := by unfold IsZero; infer_instance
instance (v) : Decidable (IsInf v) := by unfold IsInf; infer_instance
instance (v) : Decidable (IsFinite v) := by unfold IsFinite; infer_instance
instance (v) : Decidable (IsNaN v) := by unfold IsNaN; infer_instance

/-- At most `2^k` in size (the bits of a double without its sign are in the order of its size). -/
def AtMost (k : Nat) (v : BitVec 64) : Prop := v.toNat % 2^63 ≤ (1023 + k) * 2^52

/-- What IEEE 754 says about zeros, infinities and the sizes of results (rounding does not pass a power of two), and the powers of
ten that a double can hold. -/
structure Ieee (A : Arith U64) : Prop where
  ofInt_zero : IsZero (A.ofInt 0)
  ofInt_finite : ∀ i : Int, i.natAbs < 2^53 → IsFinite (A.ofInt i)
  add_zero : ∀ a b, IsZero a → IsZero b → IsZero (A.add a b)
  mul_zero : ∀ a b, IsZero a → IsFinite b → IsZero (A.mul a b)
  mul_inf : ∀ a b, IsInf b → IsInf (A.mul a b) ∨ IsNaN (A.mul a b)
  mul_zero_inf : ∀ a b, IsZero a → IsInf b → IsNaN (A.mul a b)
  div_ten : ∀ a, IsFinite a → IsFinite (A.div a (A.ofInt 10))
  pow10_finite : ∀ e, e ≤ 308 → IsFinite (A.pow10 e)
  pow10_inf : ∀ e, 309 ≤ e → IsInf (A.pow10 e)
  ofInt_size : ∀ (i : Int) k, i.natAbs ≤ 2^k → k ≤ 1023 → AtMost k (A.ofInt i)
  add_size : ∀ a b k, AtMost k a → AtMost k b → k + 1 ≤ 1023 → AtMost (k + 1) (A.add a b)
  mul_size : ∀ a b i j, AtMost i a → AtMost j b → i + j ≤ 1023 → AtMost (i + j) (A.mul a b)
  div_ten_size : ∀ a k, AtMost k a → k ≤ 1023 → AtMost k (A.div a (A.ofInt 10))
  pow10_size : ∀ (e : Int) k, 10 ^ e.toNat ≤ 2^k → k ≤ 1023 → AtMost k (A.pow10 e)

end Ab.Spec
