import Verif.Model.Interp
/-!
Model of the names of the interpreter's opcodes (core/include/Ab/XDisasm.hpp.jinja, core/include/Ab/Opcode.hpp.jinja,
data/abx_operators.yaml).
-/
namespace Ab.OpName

/-- The enumerators of `Opcode` (Opcode.hpp.jinja:11-31) with the operator (data/abx_operators.yaml) whose name, in capitals and with
`_` for `.`, is the enumerator's (`constify`, scripts/jinja-generate.py:37). -/
def table : List (Nat × String) :=
  [(0x00, "unreachable"), (0x01, "nop"), (0x02, "call_primitive"), (0x04, "halt"), (0x0c, "return"), (0x0d, "x32.return"),
   (0x0e, "x64.return"), (0x10, "call"), (0x11, "call_indirect"), (0x16, "goto"), (0x17, "goto_if"), (0x18, "goto_unless"),
   (0x20, "move_x32"), (0x21, "move_x64"), (0x22, "load_result_x32"), (0x23, "load_result_x64"), (0x26, "get_global"),
   (0x27, "set_global"), (0x6a, "i32.add")]

/-- `cstring` and `name` of an opcode, and what `<<` writes (XDisasm.hpp.jinja:22-41); the opcode is any byte, `Opcode` having a fixed
underlying type (Opcode.hpp.jinja:11). -/
def name (code : Byte) : String :=
  match table.find? (fun e => e.1 == code.toNat) with
  | some e => e.2
  | none => "unknown"

end Ab.OpName
