import Verif.Model.Units
/-! What the units mean. -/
namespace Ab.Spec

open Units

/-- The integer types of x86-64: 8, 16, 32 or 64 bits, signed or not. -/
def Proper (t : IntTy) : Prop := t.bits = 8 ∨ t.bits = 16 ∨ t.bits = 32 ∨ t.bits = 64

/-- The value is one of the type: two's complement or unsigned. -/
def FitsType (t : IntTy) (v : Int) : Prop :=
  match t.signed with
  | true => -2^(t.bits - 1) ≤ v ∧ v < 2^(t.bits - 1)
  | false => 0 ≤ v ∧ v < 2^t.bits

/-- `v` is what is left of `w` in the type: a value of it that differs from `w` by a multiple of `2^bits`. -/
def Wrapped (t : IntTy) (w v : Int) : Prop := FitsType t v ∧ ∃ k : Int, w = v + k * 2^t.bits

/-- The units and how many bytes they are. -/
def units : List ((IntTy → Int → Outcome Int) × Int) :=
  [(bytes, 1), (kibibytes, 2^10), (mebibytes, 2^20), (gibibytes, 2^30), (tebibytes, 2^40)]

end Ab.Spec
