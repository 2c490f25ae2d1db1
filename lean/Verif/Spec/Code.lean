import Verif.Spec.Disasm2
/-! How code should be printed. -/
namespace Ab.Spec.Disasm
open Ab.Wasm Ab.Spec.Wasm

/-! ### Names, as in the design documents of WebAssembly, with an underscore for the dot -/

def ofType (t : String) (l : List String) : List String := l.map fun s => t ++ "_" ++ s

def intTests : List String := ["eqz", "eq", "ne", "lt_s", "lt_u", "gt_s", "gt_u", "le_s", "le_u", "ge_s", "ge_u"]
def floatTests : List String := ["eq", "ne", "lt", "gt", "le", "ge"]
def intOps : List String := ["clz", "ctz", "popcnt", "add", "sub", "mul", "div_s", "div_u", "rem_s", "rem_u", "and", "or", "xor", "shl",
  "shr_s", "shr_u", "rotl", "rotr"]
def floatOps : List String := ["abs", "neg", "ceil", "floor", "trunc", "nearest", "sqrt", "add", "sub", "mul", "div", "min", "max", "copysign"]

/-- Runs of operators: the code of the first, and the names. -/
def runs : List (Nat × List String) :=
  [(0x00, ["unreachable", "nop", "block", "loop", "if", "else"]),
   (0x0b, ["end", "br", "br_if", "br_table", "return", "call", "call_indirect"]),
   (0x1a, ["drop", "select"]),
   (0x20, ["get_local", "set_local", "tee_local", "get_global", "set_global"]),
   (0x28, ["i32_load", "i64_load", "f32_load", "f64_load"] ++ ofType "i32" ["load8_s", "load8_u", "load16_s", "load16_u"] ++
     ofType "i64" ["load8_s", "load8_u", "load16_s", "load16_u", "load32_s", "load32_u"] ++
     ["i32_store", "i64_store", "f32_store", "f64_store"] ++ ofType "i32" ["store8", "store16"] ++ ofType "i64" ["store8", "store16", "store32"]),
   (0x41, ["i32_const", "i64_const", "f32_const", "f64_const"] ++ ofType "i32" intTests ++ ofType "i64" intTests ++ ofType "f32" floatTests ++
     ofType "f64" floatTests ++ ofType "i32" intOps ++ ofType "i64" intOps ++ ofType "f32" floatOps ++ ofType "f64" floatOps)]

/-- The name of an operator. -/
def operatorName (op : Nat) : Option String :=
  runs.findSome? fun r => if r.1 ≤ op then r.2[op - r.1]? else none

/-! ### Instructions -/

/-- An instruction: its name and its immediates. Of a branch table the default and the first target are shown. -/
def codeTrees (num : Int → List Char) (e : Expr) : List Tree :=
  word ((operatorName e.op.toNat).getD "unknown") :: match e.imm with
    | .none => []
    | .typeCode t => [valueType t]
    | .index n => [number num n.toNat]
    | .signature n r => [number num n.toNat, number num r.toNat]
    | .int n => [number num n.toInt]
    | .u32 n => [number num n.toNat]
    | .u64 n => [number num n.toNat]
    | .table l d => [word "default", number num d.toNat] ++ (l.take 1).map fun t => number num t.toNat
    | .memory a b => [number num a.toNat, number num b.toNat]

/-- … on one line. -/
def codeLine (num : Int → List Char) (e : Expr) : List Char := renderAll (codeTrees num e)

def END : Expr := ⟨0x0b#8, .none⟩
def ELSE : Expr := ⟨0x05#8, .none⟩

/-- Structured code. -/
inductive Stmt
  | simple (e : Expr)
  | block (e : Expr) (body : List Stmt)
  | branch (e : Expr) (yes no : List Stmt)

mutual
/-- The instructions of structured code. -/
def Stmt.code : Stmt → List Expr
  | .simple e => [e]
  | .block e l => e :: codeAll l ++ [END]
  | .branch e y n => e :: codeAll y ++ ELSE :: codeAll n ++ [END]
def codeAll : List Stmt → List Expr
  | [] => []
  | s :: l => s.code ++ codeAll l
end

/-- An instruction that does not begin or end a block. -/
def Simple (e : Expr) : Prop :=
  e.op ≠ 0x02#8 ∧ e.op ≠ 0x03#8 ∧ e.op ≠ 0x04#8 ∧ e.op ≠ 0x05#8 ∧ e.op ≠ 0x0b#8

/-- `block`, `loop` or `if`; of a `block` the type must be one that has a name. -/
def Opens (e : Expr) : Prop :=
  (e.op = 0x02#8 ∧ ∃ t : Byte, e.imm = .typeCode t ∧ t ∈ [0x7f#8, 0x7e#8, 0x7d#8, 0x7c#8, 0x70#8, 0x60#8, 0x40#8]) ∨ e.op = 0x03#8 ∨ e.op = 0x04#8

mutual
def Stmt.Proper : Stmt → Prop
  | .simple e => Simple e
  | .block e l => Opens e ∧ ProperAll l
  | .branch e y n => e.op = 0x04#8 ∧ ProperAll y ∧ ProperAll n
def ProperAll : List Stmt → Prop
  | [] => True
  | s :: l => s.Proper ∧ ProperAll l
end

mutual
/-- The number of blocks inside each other. -/
def Stmt.height : Stmt → Nat
  | .simple _ => 0
  | .block _ l => heightAll l + 1
  | .branch _ y n => max (heightAll y) (heightAll n) + 1
def heightAll : List Stmt → Nat
  | [] => 0
  | s :: l => max s.height (heightAll l)
end

mutual
/-- Code at level `d`: one instruction a line, the inside of a block indented once more. -/
def Stmt.layout (num : Int → List Char) (d : Nat) : Stmt → List Char
  | .simple e => lineAt d (codeLine num e)
  | .block e l => lineAt d (codeLine num e) ++ layoutAll num (d + 1) l ++ lineAt d "end".toList
  | .branch e y n => lineAt d (codeLine num e) ++ layoutAll num (d + 1) y ++ lineAt d "else".toList ++ layoutAll num (d + 1) n ++
      lineAt d "end".toList
def layoutAll (num : Int → List Char) (d : Nat) : List Stmt → List Char
  | [] => []
  | s :: l => s.layout num d ++ layoutAll num d l
end

end Ab.Spec.Disasm
