import Verif.Spec.EdnGrammar
/-! The number a real literal denotes, and what it means to be read as the nearest double. -/
namespace Ab.Spec

open Edn

/-- The number a literal denotes. -/
def denoted (neg : Bool) (ints frac : List Byte) (ex : Int) : Rat :=
  (if neg then -1 else 1) * ((digitsVal ints : Rat) + (digitsVal frac : Rat) / 10 ^ frac.length) * 10 ^ ex

/-- Exact arithmetic with fractions. -/
def exactArith : Arith Rat := ⟨fun i => (i : Rat), (· + ·), (· * ·), (· / ·), fun e => 10 ^ e⟩

/-- The numbers with a mantissa of 53 bits. The exponent is not limited: overflow and underflow are left out. -/
def IsDouble (x : Rat) : Prop := ∃ m e : Int, m.natAbs < 2^53 ∧ x = (m : Rat) * 2 ^ e

/-- The size of a fraction. -/
def mag (x : Rat) : Rat := if x < 0 then -x else x

/-- `y` is a double and no double is nearer to `x`. -/
def Nearest (x y : Rat) : Prop := IsDouble y ∧ ∀ z, IsDouble z → mag (x - y) ≤ mag (x - z)

/-- Arithmetic that rounds every result to a nearest double (ties either way); small integers are converted
exactly, and the library's power of ten is off by at most one unit in the last place, and right for `10^0`. -/
structure Rounds (A : Arith Rat) : Prop where
  ofInt : ∀ i : Int, i.natAbs < 2^53 → A.ofInt i = i
  add : ∀ a b, IsDouble a → IsDouble b → Nearest (a + b) (A.add a b)
  mul : ∀ a b, IsDouble a → IsDouble b → Nearest (a * b) (A.mul a b)
  div : ∀ a b, IsDouble a → IsDouble b → b ≠ 0 → Nearest (a / b) (A.div a b)
  pow10 : ∀ e, IsDouble (A.pow10 e) ∧ mag (10 ^ e - A.pow10 e) ≤ 10 ^ e / 2^52
  pow10_zero : A.pow10 0 = 1

end Ab.Spec
