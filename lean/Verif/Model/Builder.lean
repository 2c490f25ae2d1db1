import Verif.Model.Module

/-!
Model of the in-memory module builder (core/include/Ab/ModuleBuilder.hpp), the code writer
(core/include/Ab/ModuleWriter.hpp:33-81) and the instruction list reader (core/include/Ab/ModuleReader.hpp).
-/

namespace Ab

/-- The `InsnNode` subclasses (ModuleBuilder.hpp:79-164) with their operand fields (`std::uint32_t`).
`InsnKind::LABEL` has no node class. -/
inductive Insn where
  | unreachable
  | halt
  | nop
  | i32Add (dst lhs rhs : U32)
  | ret
  | x32Return (src : U32)
  | x64Return (src : U32)
deriving Repr, DecidableEq

/-- Implicit conversion of a `std::uint32_t` argument to a `std::uint8_t` parameter
(ModuleBuilder.hpp:241, 249, 254 calling the visitor's `std::uint8_t` functions). -/
def narrow8 (r : U32) : Byte := r.setWidth 8

/-- One iteration of the loop of `FuncNode::accept` (ModuleBuilder.hpp:228-258) with a `CodeWriter`
as the visitor (ModuleWriter.hpp:43-66): the bytes appended to `body_`. -/
def writeInsn : Insn → List Byte
  | .unreachable => [0x00#8]
  | .halt => [0x04#8]
  | .nop => [0x01#8]
  | .i32Add dst lhs rhs => [0x6a#8, narrow8 dst, narrow8 lhs, narrow8 rhs]
  | .ret => [0x0c#8]
  | .x32Return src => [0x0d#8, narrow8 src]
  | .x64Return src => [0x0e#8, narrow8 src]

/-- `FuncNode` (ModuleBuilder.hpp:223-272): data members. -/
structure FuncNode where
  typeIdx : U32
  nregs : U32
  insns : List Insn
deriving Repr, DecidableEq

/-- `FuncNode::accept` into a `CodeWriter` (ModuleBuilder.hpp:225-262): `enter_code(nregs)`, then each
instruction in order. -/
def FuncNode.code (f : FuncNode) : CodeEntry := ⟨f.nregs, (f.insns.map writeInsn).flatten⟩

/-- `ModuleNode` (ModuleBuilder.hpp:274-334): data members. -/
structure ModuleNode where
  types : List FuncType
  funcs : List FuncNode
deriving Repr, DecidableEq

/-- `ModuleNode::accept` into a `ModuleWriter` (ModuleBuilder.hpp:286-293, 308-333): what the writer has
collected afterwards. The export section visits nothing. -/
def ModuleNode.accept (m : ModuleNode) : WModule :=
  ⟨m.types, m.funcs.map (·.typeIdx), m.funcs.map FuncNode.code⟩

/-- `ModuleNode::write` (ModuleBuilder.hpp:298-302). -/
def ModuleNode.write (m : ModuleNode) : List Byte := writeModule m.accept

/-! ## InstructionListReader (core/include/Ab/ModuleReader.hpp:8-44) -/

/-- What the visitor is told. -/
inductive ReaderEvent where
  | unreachable
  | nop
  | halt
deriving Repr, DecidableEq

/-- `InstructionListReader::accept` (ModuleReader.hpp:14-34) from a given offset, with fuel: the reported
events. An opcode without a `case` leaves the switch without changing `offset`. -/
def readInsnList (bs : List Byte) : Nat → Nat → Outcome (List ReaderEvent)
  | 0, _ => .fuel
  | fuel + 1, offset =>
    if offset < bs.length then
      match bs[offset]? with
      | none => .ub "load outside the instruction list"
      | some op =>
        if op = 0x00#8 then do
          let es ← readInsnList bs fuel (offset + 1)
          .ok (.unreachable :: es)
        else if op = 0x01#8 then do
          let es ← readInsnList bs fuel (offset + 1)
          .ok (.nop :: es)
        else if op = 0x04#8 then do
          let es ← readInsnList bs fuel (offset + 1)
          .ok (.halt :: es)
        else readInsnList bs fuel offset
    else .ok []

end Ab
