import Verif.Basic

/-!
Independent specification of base-128 (LEB128) numbers. Nothing here mentions the model.
-/

namespace Ab.Spec

/-- A byte carries the continuation flag. -/
def Continues (b : Byte) : Prop := 128 ≤ b.toNat

instance (b : Byte) : Decidable (Continues b) := inferInstanceAs (Decidable (_ ≤ _))

/-- `enc` is one complete base-128 number: every byte but the last continues, the last does not. -/
def IsLeb : List Byte → Prop
  | [] => False
  | [b] => ¬ Continues b
  | b :: bs => Continues b ∧ IsLeb bs

/-- The number a base-128 byte string denotes: little-endian digits, seven bits each. -/
def lebValue : List Byte → Nat
  | [] => 0
  | b :: bs => b.toNat % 128 + 128 * lebValue bs

/-- The integer a *signed* base-128 byte string denotes: bit 6 of the last byte is the sign. -/
def slebValue : List Byte → Int
  | [] => 0
  | [b] => if 64 ≤ b.toNat % 128 then (b.toNat % 128 : Int) - 128 else (b.toNat % 128 : Int)
  | b :: bs => (b.toNat % 128 : Int) + 128 * slebValue bs

/-- Number of base-128 digits of `n` (at least one). -/
def digits128 (n : Nat) : Nat := if n < 128 then 1 else 1 + digits128 (n / 128)
termination_by n

end Ab.Spec
