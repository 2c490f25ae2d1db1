import Verif.Spec.Disasm2
/-! What the disassembler should print for a function: its locals and its instructions, one a line, indented by the blocks they
are in. -/
namespace Ab.Spec.Disasm
open Ab.Wasm Ab.Spec.Wasm

/-- The comparisons of integers and of floating-point numbers, and the other operations, in the order of their codes. -/
def intComparisons : List String := ["eqz", "eq", "ne", "lt_s", "lt_u", "gt_s", "gt_u", "le_s", "le_u", "ge_s", "ge_u"]
@[inherit_doc intComparisons]
def floatComparisons : List String := ["eq", "ne", "lt", "gt", "le", "ge"]
@[inherit_doc intComparisons]
def intOperations : List String := ["clz", "ctz", "popcnt", "add", "sub", "mul", "div_s", "div_u", "rem_s", "rem_u", "and", "or",
  "xor", "shl", "shr_s", "shr_u", "rotl", "rotr"]
@[inherit_doc intComparisons]
def floatOperations : List String := ["abs", "neg", "ceil", "floor", "trunc", "nearest", "sqrt", "add", "sub", "mul", "div", "min",
  "max", "copysign"]
/-- The instructions on memory. -/
def memoryInstructions : List String :=
  ["i32_load", "i64_load", "f32_load", "f64_load", "i32_load8_s", "i32_load8_u", "i32_load16_s", "i32_load16_u",
   "i64_load8_s", "i64_load8_u", "i64_load16_s", "i64_load16_u", "i64_load32_s", "i64_load32_u",
   "i32_store", "i64_store", "f32_store", "f64_store", "i32_store8", "i32_store16", "i64_store8", "i64_store16", "i64_store32"]
/-- The control instructions, those on the operand stack, and those on variables. -/
def otherInstructions : List (Nat × List String) :=
  [(0x00, ["unreachable", "nop", "block", "loop", "if", "else"]),
   (0x0b, ["end", "br", "br_if", "br_table", "return", "call", "call_indirect"]),
   (0x1a, ["drop", "select"]),
   (0x20, ["get_local", "set_local", "tee_local", "get_global", "set_global"]),
   (0x28, memoryInstructions),
   (0x41, ["i32", "i64", "f32", "f64"].map (· ++ "_const"))]

/-- The instructions of version 1, conversions apart, each group with the code of its first: the names of the WebAssembly text
format (as it was then), with an underscore for the dot. -/
def instructionGroups : List (Nat × List String) :=
  otherInstructions ++
  [(0x45, intComparisons.map ("i32_" ++ ·)), (0x50, intComparisons.map ("i64_" ++ ·)),
   (0x5b, floatComparisons.map ("f32_" ++ ·)), (0x61, floatComparisons.map ("f64_" ++ ·)),
   (0x67, intOperations.map ("i32_" ++ ·)), (0x79, intOperations.map ("i64_" ++ ·)),
   (0x8b, floatOperations.map ("f32_" ++ ·)), (0x99, floatOperations.map ("f64_" ++ ·))]

/-- The name of an instruction. -/
def instructionName (op : Nat) : Option String :=
  instructionGroups.findSome? fun g => if g.1 ≤ op then g.2[op - g.1]? else none

section
variable (num : Int → List Char)

/-- The immediates of an instruction, all of them. -/
def operands : Imm → List Tree
  | .none => []
  | .typeCode t => [valueType t]
  | .index n => [number num n.toNat]
  | .signature n r => [number num n.toNat, number num r.toNat]
  | .int n => [number num n.toInt]
  | .u32 n => [number num n.toNat]
  | .u64 n => [number num n.toNat]
  | .table l d => word "default" :: number num d.toNat :: l.map fun t => number num t.toNat
  | .memory a o => [number num a.toNat, number num o.toNat]

/-- An instruction: its name and its immediates. -/
def instruction (e : Expr) : List Char := renderAll (word ((instructionName e.op.toNat).getD "") :: operands num e.imm)
end

/-- The number of blocks open after an instruction, when `d` are before. `block`, `loop` and `if` open one, `end` closes one
(or ends the function). -/
def openNext (d : Nat) (e : Expr) : Nat :=
  if 0x02 ≤ e.op.toNat ∧ e.op.toNat ≤ 0x04 then d + 1 else if e.op.toNat = 0x0b then d - 1 else d

/-- The level of the line of an instruction: that of the blocks it is in; `end` and `else` are at the level of the instruction
they belong to. -/
def level (d : Nat) (e : Expr) : Nat := if e.op.toNat = 0x0b ∨ e.op.toNat = 0x05 then d - 1 else d

/-- The lines of instructions, inside `d` blocks; those of no block are at level 2. -/
def codeLines (num : Int → List Char) : Nat → List Expr → List Char
  | _, [] => []
  | d, e :: l => lineAt (2 + level d e) (instruction num e) ++ codeLines num (openNext d e) l

/-- Each `else` is in a block, and every block is closed. -/
def WellNested : Nat → List Expr → Prop
  | d, [] => d = 0
  | d, e :: l => (e.op.toNat = 0x05 → 0 < d) ∧ WellNested (openNext d e) l

/-- The most blocks that are open at once. -/
def deepest : Nat → List Expr → Nat
  | d, [] => d
  | d, e :: l => max d (deepest (openNext d e) l)

/-- A function: the number of its type, its locals, its instructions and their bytes. -/
structure Func where
  type   : U32
  locals : List LocalEntry
  instrs : List Expr
  code   : List Byte

/-- The locals: the number of entries, then, with a mark before each, the types of an entry's locals, each after another mark. -/
def localsTree (l : List LocalEntry) : Tree :=
  .list ([word "local", .atom (inDecimal l.length)] ++
    l.flatMap fun e => word "tttt" :: (List.replicate e.count.toNat [word "test", valueType e.type]).flatten)

/-- The text of a function. -/
def funcText (num : Int → List Char) (f : Func) : List Char :=
  lineAt 1 ("(func ".toList ++ (Tree.list [word "typezz", .atom (inDecimal f.type.toNat)]).render) ++
    lineAt 2 (localsTree f.locals).render ++ codeLines num 0 f.instrs ++ [')']

/-- What is written to the standard output on the way. -/
def funcNote (f : Func) : List Char := "!!! locals = ".toList ++ inDecimal f.locals.length ++ " !!!\n".toList

/-- The functions that can be printed: the instructions are those of version 1 without those the reader lacks, properly
nested, no more than eight deep; a block has a known type; a branch table has at most one target besides the default. -/
structure Printable (f : Func) : Prop where
  encoded : EncSeq (EncInstr NotLongNegative) f.code f.instrs
  some    : f.instrs ≠ []
  known   : ∀ e ∈ f.instrs, ¬ Missing e.op.toNat
  nested  : WellNested 0 f.instrs
  shallow : deepest 0 f.instrs ≤ 8
  types   : ∀ e ∈ f.instrs, e.op.toNat = 0x02 → ∀ t, e.imm = .typeCode t →
    t.toNat ∈ [0x7f, 0x7e, 0x7d, 0x7c, 0x70, 0x60, 0x40]
  tables  : ∀ e ∈ f.instrs, ∀ l d, e.imm = .table l d → l.length ≤ 1
  size    : f.code.length < 2 ^ 32

/-- What a visitor is told of a module with these functions, where the size of a function is that of its instructions. -/
def funcCalls (fs : List Func) : List Call :=
  [.event .moduleStart, .event (.header 0x6d736100#32 1#32)] ++
  (fs.zipIdx.map fun (f, i) => .event (.functionEntry i f.type)) ++
  (fs.zipIdx.flatMap fun (f, i) => [.body i ⟨BitVec.ofNat 32 f.code.length, f.locals⟩ f.code,
    .event (.functionBodyEnd ⟨BitVec.ofNat 32 f.code.length, f.locals⟩)]) ++
  [.event .moduleEnd]

end Ab.Spec.Disasm
