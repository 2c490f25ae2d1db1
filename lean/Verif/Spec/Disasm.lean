import Verif.Spec.Wasm
import Verif.Model.Disasm
/-! What the disassembler should print: one S-expression per entry. -/
namespace Ab.Spec.Disasm
open Ab.Wasm Ab.Spec.Wasm

/-- An S-expression. -/
inductive Tree
  | atom (s : List Char)
  | list (l : List Tree)

mutual
/-- An S-expression on one line. -/
def Tree.render : Tree → List Char
  | .atom s => s
  | .list l => '(' :: renderAll l ++ [')']
def renderAll : List Tree → List Char
  | [] => []
  | t :: l => t.render ++ renderRest l
def renderRest : List Tree → List Char
  | [] => []
  | t :: l => ' ' :: t.render ++ renderRest l
end

def word (s : String) : Tree := .atom s.toList

/-- A name between quotes. -/
def name (s : List Byte) : Tree := .atom ('"' :: s.map chr ++ ['"'])

section
/-! `num` is how numbers are shown. -/
variable (num : Int → List Char)

def number (n : Int) : Tree := .atom (num n)

/-- The names of types. -/
def valueType (t : Byte) : Tree := word <| match t.toNat with
  | 0x7f => "i32"
  | 0x7e => "i64"
  | 0x7d => "f32"
  | 0x7c => "f64"
  | 0x70 => "anyfunc"
  | 0x60 => "func"
  | 0x40 => "empty"
  | _ => "UNKNOWN_TYPECODE"

/-- The names of kinds of exports. -/
def kind (k : Byte) : Tree := word <| match k.toNat with
  | 0 => "func"
  | 1 => "table"
  | 2 => "memory"
  | 3 => "global"
  | _ => "UNKNOWN_EXTERNAL_KIND_CODE"

/-- The numbers of kinds of imports. -/
def importKind : ImportType → Int
  | .function _ => 0
  | .table _ _ => 1
  | .memory _ => 2
  | .global _ => 3

/-- The names of the instructions that can stand in an initializer, which this project writes with an underscore. -/
def initName (op : Byte) : String := match op.toNat with
  | 0x23 => "get_global"
  | 0x41 => "i32_const"
  | 0x42 => "i64_const"
  | 0x43 => "f32_const"
  | 0x44 => "f64_const"
  | _ => ""

/-- A byte of data: itself if it is visible, otherwise after a backslash. -/
def dataByte (b : Byte) : List Char :=
  if 0x21 ≤ b.toNat ∧ b.toNat ≤ 0x7e then [chr b] else ['\\', chr b]

def limitsTrees (l : Limits) : List Tree :=
  number num l.initial.toNat :: if l.hasMax then [number num l.max.toNat] else []

def globalTypeTree (g : GlobalType) : Tree :=
  .list (if g.isMutable then [word "mut", valueType g.content] else [valueType g.content])

def funcTypeTree (t : FunctionType) : Tree :=
  .list ([word "func"] ++ (if t.params = [] then [] else [.list (word "param" :: t.params.map valueType)]) ++
    (if t.hasReturn then [.list [word "result", valueType t.ret]] else []))

def importTypeTree : ImportType → Tree
  | .function t => .list [word "type", word "qqq", number num t.toNat]
  | .table t l => .list ([word "table"] ++ limitsTrees num l ++ [valueType t])
  | .memory l => .list (word "memory" :: limitsTrees num l)
  | .global g => globalTypeTree g

def importTree (e : ImportEntry) : Tree :=
  .list [word "import", name e.module, name e.field, word "(;", word "kind", number num (importKind e.type), word ";)",
    importTypeTree num e.type]

def exportTree (e : ExportEntry) : Tree :=
  .list [word "export", name e.field, .list [kind e.kind, number num e.index.toNat]]

/-- An initializer: its name and its immediate, signed ones as signed numbers, floating-point ones as their bits. -/
def instrTrees (e : Expr) : List Tree :=
  word (initName e.op) :: match e.imm with
    | .index n => [number num n.toNat]
    | .int n => [number num n.toInt]
    | .u32 n => [number num n.toNat]
    | .u64 n => [number num n.toNat]
    | _ => []

def globalTree (g : GlobalType × Expr) : Tree :=
  .list [word "global", globalTypeTree g.1, .list (instrTrees num g.2)]

def elementsTree (e : Elements) : Tree :=
  .list ([word "elem", .list (instrTrees num e.offset)] ++ e.items.map fun n => number num n.toNat)

def dataTree (d : DataSegment) : Tree :=
  .list ([word "data"] ++ instrTrees num d.init ++ [.atom ('"' :: d.data.flatMap dataByte ++ ['"'])])

/-- The entries of a section, functions apart. -/
def items : Content → List Tree
  | .types l => l.map funcTypeTree
  | .imports l => l.map (importTree num)
  | .globals l => l.map (globalTree num)
  | .exports l => l.map (exportTree num)
  | .elements l => l.map (elementsTree num)
  | .data l => l.map (dataTree num)
  | _ => []

/-- The text of a module: its entries, one a line, indented. -/
def text (m : List WSection) : List Char :=
  "(module".toList ++ (m.flatMap fun s => items num s.content).flatMap (fun t => "\n  ".toList ++ t.render) ++ ")\n".toList
end

/-- A number in decimal. -/
def inDecimal (n : Int) : List Char := (toString n).toList

/-- A number as the one character whose code is its last eight bits. -/
def asCharacter (n : Int) : List Char := [chr (BitVec.ofInt 8 n)]

end Ab.Spec.Disasm
