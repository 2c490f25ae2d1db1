import Verif.Spec.Machine
import Verif.Model.Types

/-!
Specification of the calling convention (C20, C27): how argument and result values map to 32-bit registers.
-/

namespace Ab.Spec

/-- 64-bit types take two registers, 32-bit types one. -/
def regCount : CType → Nat
  | .u64 | .i64 | .f64 => 2
  | .u32 | .i32 | .f32 => 1

/-- The registers that hold a value: low half first. -/
def slotVals (t : CType) (v : Nat) : List U32 :=
  if regCount t = 2 then [BitVec.ofNat 32 v, BitVec.ofNat 32 (v / 2 ^ 32)] else [BitVec.ofNat 32 v]

/-- The registers holding a list of arguments, from register 0 on. -/
def argRegs : List (CType × Nat) → List U32
  | [] => []
  | (t, v) :: rest => slotVals t v ++ argRegs rest

/-- The value held by the registers from `i` on. -/
def valueAt (regs : Regs) (i : Nat) (t : CType) : Nat :=
  if regCount t = 2 then (regs i).toNat + 2 ^ 32 * (regs (i + 1)).toNat else (regs i).toNat

/-- The values held by the registers from `i` on. -/
def retVals (regs : Regs) : Nat → List CType → List Nat
  | _, [] => []
  | i, t :: ts => valueAt regs i t :: retVals regs (i + regCount t) ts

/-- Registers taken by a list of types. -/
def regTotal (ts : List CType) : Nat := (ts.map regCount).sum

end Ab.Spec
