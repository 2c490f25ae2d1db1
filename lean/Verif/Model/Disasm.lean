import Verif.Model.WasmReader
import Verif.Model.Sexpr
/-! Model of disasm/src/ab-disasm-main.cpp and core/include/Ab/Wasm/Printing.hpp: the disassembler. -/
namespace Ab.Wasm
open Sexpr

/-- A byte as a character of the output, which is a byte string. -/
def chr (b : Byte) : Char := Char.ofNat b.toNat

/-- `WastPrinter` (ab-disasm-main.cpp:34-172): the formatter, the function types seen so far, and what
`fmt::print` has written to the standard output. -/
structure Printer where
  out     : Formatter
  types   : List U32
  console : List Char
deriving Repr, DecidableEq

def Printer.new : Printer := ⟨Formatter.new, [], []⟩

/-- `out << str` for text. -/
def Formatter.str (f : Formatter) (s : String) : Formatter := f.text s.toList

/-- `out << n` for an integer, in namespace `Ab::Wasm`. The overloads for integers (Sexpr.hpp:157-185) are in
the global namespace, where lookup from `Ab::Wasm` does not reach: it stops at the `operator<<`s of
`Ab::Wasm`, and argument-dependent lookup adds those of `Ab::Sexpr` only. The overload chosen is the one for
`char` (Sexpr.hpp:86-91). -/
def Formatter.num (f : Formatter) (n : Nat) : Formatter := f.text [chr (BitVec.ofNat 8 n)]

/-- A number in decimal: `fmt::format("{}", n)`. -/
def decimal (n : Nat) : List Char := (toString n).toList

/-- `to_string(TypeCode)` (Printing.hpp:21-40). -/
def typeName (t : Byte) : String :=
  if t = 0x7f#8 then "i32" else if t = 0x7e#8 then "i64" else if t = 0x7d#8 then "f32"
  else if t = 0x7c#8 then "f64" else if t = 0x70#8 then "anyfunc" else if t = 0x60#8 then "func"
  else if t = 0x40#8 then "empty" else "UNKNOWN_TYPECODE"

/-- `to_string(SectionCode)` (Printing.hpp:46-75). -/
def sectionCodeName (c : Byte) : String :=
  (["NAME", "TYPE", "IMPORT", "FUNCTION", "TABLE", "MEMORY", "GLOBAL", "EXPORT", "START", "ELEMENT", "CODE",
    "DATA"][c.toNat]?).getD "UNKNOWN_SECTION_CODE"

/-- `to_string(ExternalKindCode)` (Printing.hpp:141-154). -/
def kindName (k : Byte) : String :=
  (["func", "table", "memory", "global"][k.toNat]?).getD "UNKNOWN_EXTERNAL_KIND_CODE"

/-- `operator<<` for `Section` (Printing.hpp:81-94). -/
def putSection (f : Formatter) (s : Section) : Formatter :=
  let f := Formatter.str f.start "section"
  let f := (Formatter.str (Formatter.str f.start "code") (sectionCodeName s.code)).stop
  let f := if s.code = 0#8 then ((Formatter.str f.start "name").text (s.name.map chr)).stop else f
  let f := (Formatter.num (Formatter.str f.start "size") s.length.toNat).stop
  f.stop

/-- `operator<<` for `ResizableLimits` (Printing.hpp:96-102). -/
def putLimits (f : Formatter) (l : Limits) : Formatter :=
  let f := Formatter.num f l.initial.toNat
  if l.hasMax then Formatter.num f l.max.toNat else f

/-- `operator<<` for `GlobalType` (Printing.hpp:131-139). -/
def putGlobalType (f : Formatter) (g : GlobalType) : Formatter :=
  let f := f.start
  let f := if g.isMutable then Formatter.str f "mut" else f
  (Formatter.str f (typeName g.content)).stop

/-- `operator<<` for `FunctionType` (Printing.hpp:114-129). -/
def putFunctionType (f : Formatter) (t : FunctionType) : Formatter :=
  let f := Formatter.str f.freshen.start "func"
  let f := if t.params = [] then f
    else (t.params.foldl (fun f p => Formatter.str f (typeName p)) (Formatter.str f.start "param")).stop
  let f := if t.hasReturn then (Formatter.str (Formatter.str f.start "result") (typeName t.ret)).stop else f
  f.stop

/-- `operator<<` for `ExportEntry` (Printing.hpp:160-167). -/
def putExport (f : Formatter) (e : ExportEntry) : Formatter :=
  let f := (Formatter.str f.start "export").text (stringify (e.field.map chr))
  let f := (Formatter.num (Formatter.str f.start (kindName e.kind)) e.index.toNat).stop
  f.stop

/-- The number of an import's kind (Ir.hpp:55). -/
def kindCode : ImportType → Nat
  | .function _ => 0
  | .table _ _ => 1
  | .memory _ => 2
  | .global _ => 3

/-- The `switch` of `operator<<` for `ImportEntry` (Printing.hpp:177-193), with those for `TableType`
(109-112) and `MemoryType` (104-107). -/
def putImportType (f : Formatter) : ImportType → Formatter
  | .function t => (Formatter.num (Formatter.str (Formatter.str f.start "type") "qqq") t.toNat).stop
  | .table t l => (Formatter.str (putLimits (Formatter.str f.start "table") l) (typeName t)).stop
  | .memory l => (putLimits (Formatter.str f.start "memory") l).stop
  | .global g => putGlobalType f g

/-- `operator<<` for `ImportEntry` (Printing.hpp:169-197). -/
def putImport (f : Formatter) (e : ImportEntry) : Formatter :=
  let f := (Formatter.str f.start "import").text (stringify (e.module.map chr))
  let f := f.text (stringify (e.field.map chr))
  let f := Formatter.str (Formatter.num (Formatter.str (Formatter.str f "(;") "kind") (kindCode e.type)) ";)"
  (putImportType f e.type).stop

/-- `operator<<` for the immediates (Expression.hpp:66-68, Printing.hpp:250-264): of a branch table only the
default and the first target are printed. -/
def putImm (f : Formatter) : Imm → Formatter
  | .none => f
  | .typeCode t => Formatter.str f (typeName t)
  | .index n => Formatter.num f n.toNat
  | .signature n r => Formatter.num (Formatter.num f n.toNat) r.toNat
  | .int n => Formatter.num f n.toNat
  | .u32 n => Formatter.num f n.toNat
  | .u64 n => Formatter.num f n.toNat
  | .table l d =>
    let f := Formatter.num (Formatter.str f "default") d.toNat
    match l with
    | [] => f
    | t :: _ => Formatter.num f t.toNat
  | .memory a b => Formatter.num (Formatter.num f a.toNat) b.toNat

/-- `operator<<` for expressions (Printing.hpp:271-280) and for `InitExpr` (282-284). -/
def putExpr (f : Formatter) (e : Expr) : Formatter :=
  putImm (Formatter.str f ((opName e.op).getD "unknown")) e.imm

/-- The string of a data segment (Printing.hpp:288-298): a character above the space and below DEL as it is,
any other as a backslash and the character. `c` is a signed `char`. -/
def dataString (l : List Byte) : List Char :=
  ['"'] ++ l.flatMap (fun b => if 32 < b.toNat ∧ b.toNat < 127 then [chr b] else ['\\', chr b]) ++ ['"']

/-- `operator<<` for `DataSegment` (Printing.hpp:286-301). -/
def putData (f : Formatter) (d : DataSegment) : Formatter :=
  ((putExpr (Formatter.str f.start "data") d.init).text (dataString d.data)).stop

/-- The state of an `ExprPrinter` (Printing.hpp:304-375): the formatter and the block depth. -/
structure Body where
  out   : Formatter
  depth : Nat
deriving Repr, DecidableEq

/-- `ExprPrinter::operator()` (Printing.hpp:308-370). -/
def printExpr (b : Body) (e : Expr) : Outcome Body :=
  if e.op = 0x04#8 ∨ e.op = 0x03#8 then
    .ok ⟨Formatter.indent (putExpr b.out.freshen e), b.depth + 1⟩
  else if e.op = 0x02#8 then
    match e.imm with
    | .typeCode t =>
      if typeName t = "UNKNOWN_TYPECODE" then .throw "Bad typecode"
      else .ok ⟨Formatter.indent (putExpr b.out.freshen e), b.depth + 1⟩
    | _ => .trap "not a block"
  else if e.op = 0x0b#8 then
    if 0 < b.depth then .ok ⟨putExpr (Formatter.dedent b.out).freshen e, b.depth - 1⟩
    else .ok ⟨putExpr b.out.freshen e, b.depth⟩
  else if e.op = 0x05#8 then
    .ok ⟨Formatter.indent (putExpr (Formatter.dedent b.out).freshen e), b.depth⟩
  else .ok ⟨putExpr b.out.freshen e, b.depth⟩

/-- `operator<<` for `LocalEntry` (Printing.hpp:199-205). -/
def putLocal (f : Formatter) (l : LocalEntry) : Formatter :=
  (List.replicate l.count.toNat ()).foldl (fun f _ => Formatter.str (Formatter.str f "test") (typeName l.type)) f

/-- `operator<<` for `FunctionBody` (Printing.hpp:207-216), without its `fmt::print`. -/
def putBody (f : Formatter) (b : FunctionBody) : Formatter :=
  let f := (Formatter.str f.start "local").text (decimal b.locals.length)
  (b.locals.foldl (fun f l => putLocal (Formatter.str f "tttt") l) f).stop

/-- The `fmt::print` of `operator<<` for `FunctionBody` (Printing.hpp:208). -/
def bodyNote (b : FunctionBody) : List Char :=
  "!!! locals = ".toList ++ decimal b.locals.length ++ " !!!\n".toList

/-- `WastPrinter::function_body` (ab-disasm-main.cpp:140-156): reads expressions until `body.size` bytes were
consumed *after the locals*. `types_[index]` is not checked. -/
def Printer.body (mem : Nat) (p : Printer) (index : Nat) (b : FunctionBody) (i : In) : Outcome (Printer × In) :=
  let f := Formatter.str p.out.freshen.start "func"
  match p.types[index]? with
  | none => .ub "types_[index] out of range"
  | some t => do
    let f := ((Formatter.str f.start "typezz").text (decimal t.toNat)).stop
    let f := putBody f.freshen b
    let (s, i) ← readExprs mem printExpr i.offset b.size.toNat (i.rest.length + 1) ⟨f, 0⟩ i
    pure ({ p with out := s.out.stop, console := p.console ++ bodyNote b }, i)

/-- `;; count: n` on a line of its own (ab-disasm-main.cpp:57-63). -/
def putCount (f : Formatter) (n : U64) : Formatter :=
  (f.freshen.text (";; count: ".toList ++ decimal n.toNat)).freshen

/-- The other callbacks of `WastPrinter` (ab-disasm-main.cpp:38-163). -/
def Printer.event (verbose : Bool) (p : Printer) : Event → Outcome Printer
  | .moduleStart => .ok { p with out := Formatter.str p.out.start "module" }
  | .moduleEnd => .ok { p with out := p.out.stop.freshen }
  | .header _ _ => .ok p
  | .sectionStart s => .ok (if verbose then
      { p with out := Formatter.indent (putSection (Formatter.str p.out.freshen ";;;;;;;;;;;;;;") s) } else p)
  | .sectionEnd _ => .ok (if verbose then { p with out := Formatter.dedent p.out } else p)
  | .typeSection n => .ok (if verbose then { p with out := putCount p.out n } else p)
  | .functionType t => .ok { p with out := putFunctionType p.out.freshen t }
  | .importSection n => .ok (if verbose then { p with out := putCount p.out n } else p)
  | .importEntry e => .ok { p with out := putImport p.out.freshen e }
  | .functionEntry _ t => .ok { p with types := p.types ++ [t] }
  | .globalEntry t e =>
    let f := putGlobalType (Formatter.str p.out.freshen.start "global") t
    .ok { p with out := (putExpr f.start e).stop.stop }
  | .exportEntry e => .ok { p with out := putExport p.out.freshen e }
  | .elementEntry e => .ok { p with out := (putExpr (Formatter.str p.out.freshen.start "elem").start e.offset).stop }
  | .element _ n => .ok { p with out := Formatter.num p.out n.toNat }
  | .elementEntryEnd _ => .ok { p with out := p.out.stop }
  | .functionBodyEnd _ => .ok p
  | .dataSegment d => .ok { p with out := putData p.out.freshen d }

/-- `WastPrinter` as a visitor. -/
def wastPrinter (mem : Nat) (verbose : Bool) : Visitor Printer :=
  ⟨mem, Printer.event verbose, Printer.body mem⟩

/-- What `dump` (ab-disasm-main.cpp:176-182) writes: to the standard output on the way, and to its output
stream at the end. -/
structure Dumped where
  console : List Char
  output  : List Char
deriving Repr, DecidableEq

/-- `dump` (ab-disasm-main.cpp:176-182). -/
def dump (mem : Nat) (verbose : Bool) (bytes : List Byte) : Outcome Dumped := do
  let (p, _) ← readModule (wastPrinter mem verbose) Printer.new bytes
  pure ⟨p.console, p.out.buffer⟩

/-! ### The command line -/

/-- `Config` (ab-disasm-main.cpp:22-27). -/
structure Config where
  input   : Option String := none
  output  : Option String := none
  debug   : Bool := false
  verbose : Bool := false
deriving Repr, DecidableEq

/-- What `parseArguments` does: it returns a configuration, or prints and exits with success. -/
inductive Parsed
  | config (c : Config)
  | usage
  | version
deriving Repr, DecidableEq

/-- The positional argument (ab-disasm-main.cpp:224-227). -/
def positional (c : Config) : List String → Config
  | [] => c
  | a :: _ => { c with input := some a }

/-- The flags of `parseArguments` (ab-disasm-main.cpp:190-214), on the arguments after the program's name.
After `-o` the next element of `argv` is used; when there is none it is the null pointer that ends `argv`,
and building a `std::string` from it is undefined. -/
def parseFlags (c : Config) : List String → Outcome Parsed
  | [] => .ok (.config c)
  | a :: rest =>
    if a = "-o" ∨ a = "--ouput" then
      match rest with
      | [] => .ub "std::string from a null pointer"
      | o :: rest => parseFlags { c with output := some o } rest
    else if a = "-h" ∨ a = "--help" then .ok .usage
    else if a = "--version" then .ok .version
    else if a = "--debug" ∨ a = "-d" then parseFlags { c with debug := true } rest
    else if a = "--verbose" ∨ a = "-v" then parseFlags { c with verbose := true } rest
    else if a = "--" then .ok (.config (positional c rest))
    else .ok (.config (positional c (a :: rest)))

/-- `parseArguments` (ab-disasm-main.cpp:184-228). -/
def parseArguments (args : List String) : Outcome Parsed := parseFlags {} args

end Ab.Wasm
