import Verif.Model.Trace
import Verif.Spec.WellFormed
/-! What a trace of the abstract machine should say. -/
namespace Ab.Spec.Trace
open Ab.Trace (Line)

/-- The name of an instruction. -/
def title : Instr → String
  | .unreachable => "unreachable"
  | .nop => "nop"
  | .halt => "halt"
  | .ret => "return"
  | .x32ret _ => "x32.return"
  | .x64ret _ => "x64.return"
  | .goto _ => "goto"
  | .gotoIf _ _ => "goto_if"
  | .gotoUnless _ _ => "goto_unless"
  | .add _ _ _ => "i32.add"
  | .sub _ _ _ => "i32.sub"

/-- The values of an instruction: the operands as found in `operands`, the result in `result`. Registers are 4 bytes each, from `sp`. -/
def values (sp : Nat) (operands result : Regs) : Instr → List Line
  | .x32ret s => [.shown "ret" s (sp + 4 * s) (operands s).toNat]
  | .add d l r | .sub d l r => [.shown "rhs" r (sp + 4 * r) (operands r).toInt, .shown "lhs" l (sp + 4 * l) (operands l).toInt,
      .shown "dst" d (sp + 4 * d) (result d).toInt]
  | _ => []

/-- The registers of a machine state; what a stopped machine has is what it had before. -/
def regsOf (before : Regs) : AState → Regs
  | .running _ r | .halted _ r | .unreachable _ r | .returned _ _ r => r
  | _ => before

/-- The trace of `k` steps of the abstract machine on a body at address `addr`: each instruction executed, by name and place, with the
operands it had – before the instruction, or if `late` after it – and its result. -/
def trace (late : Bool) (body : List Byte) (n addr sp : Nat) : Nat → AState → List Line
  | 0, _ => []
  | k + 1, .running pc regs =>
    match decode (body.drop pc) with
    | some i =>
      let next := astep body n (.running pc regs)
      .enter (title i) (addr + pc) :: values sp (if late then regsOf regs next else regs) (regsOf regs next) i ++
        trace late body n addr sp k next
    | none => []
  | _, _ => []

/-- The instruction overwrites one of its operands. -/
def Overwrites : Instr → Prop
  | .add d l r | .sub d l r => d = l ∨ d = r
  | _ => False

end Ab.Spec.Trace
