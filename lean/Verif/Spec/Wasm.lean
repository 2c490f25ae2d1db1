import Verif.Spec.Leb
import Verif.Model.WasmReader
/-!
Specification of the WebAssembly binary format, version 1 (the "MVP"), as far as the module reader is
concerned: which bytes encode which instruction and which module, and what a visitor should be told about a
module. Only the types of what the visitor is told (`Expr`, `FunctionType`, ... and `Event`) come from the
model: they are the reader's interface.
-/
namespace Ab.Spec.Wasm
open Ab.Wasm

/-- An unsigned 32-bit number: base 128, at most five bytes. -/
def EncU32 (bs : List Byte) (n : U32) : Prop := IsLeb bs ∧ bs.length ≤ 5 ∧ lebValue bs = n.toNat

/-- A signed number of `bits` bits: base 128, at most `len` bytes. -/
def EncInt (bits len : Nat) (bs : List Byte) (n : Int) : Prop :=
  IsLeb bs ∧ bs.length ≤ len ∧ slebValue bs = n ∧ -2 ^ (bits - 1) ≤ n ∧ n < 2 ^ (bits - 1)

/-- `k` bytes of a number, the least significant first. -/
def leBytes : Nat → Nat → List Byte
  | 0, _ => []
  | k + 1, n => BitVec.ofNat 8 n :: leBytes k (n / 256)

/-- Encodings of the elements of a list, one after the other. -/
inductive EncSeq (P : List Byte → α → Prop) : List Byte → List α → Prop
  | nil : EncSeq P [] []
  | cons {bs a cs l} : P bs a → EncSeq P cs l → EncSeq P (bs ++ cs) (a :: l)

/-- A vector: the number of elements, then the elements. -/
def EncVec (P : List Byte → α → Prop) (bs : List Byte) (l : List α) : Prop :=
  ∃ c cs, bs = c ++ cs ∧ l.length < 2 ^ 32 ∧ EncU32 c (BitVec.ofNat 32 l.length) ∧ EncSeq P cs l

/-- A byte. -/
def EncByte (bs : List Byte) (b : Byte) : Prop := bs = [b]

/-- A name: a vector of bytes. -/
def EncName (bs : List Byte) (s : List Byte) : Prop := EncVec EncByte bs s

/-! ### Instructions -/

/-- The opcodes of version 1. -/
def Opcode (op : Nat) : Prop :=
  op ≤ 0x05 ∨ (0x0b ≤ op ∧ op ≤ 0x11) ∨ (0x1a ≤ op ∧ op ≤ 0x1b) ∨ (0x20 ≤ op ∧ op ≤ 0x24) ∨
  (0x28 ≤ op ∧ op ≤ 0xbf)

/-- Those with a block type: block, loop, if. -/
def BlockOp (op : Nat) : Prop := 0x02 ≤ op ∧ op ≤ 0x04
/-- Those with one index: br, br_if, call, and the local and global instructions. -/
def IndexOp (op : Nat) : Prop := op = 0x0c ∨ op = 0x0d ∨ op = 0x10 ∨ (0x20 ≤ op ∧ op ≤ 0x24)
/-- Those with an alignment and an offset: loads and stores. -/
def MemoryOp (op : Nat) : Prop := 0x28 ≤ op ∧ op ≤ 0x3e
/-- Those with a reserved byte: memory.size, memory.grow. -/
def ReservedOp (op : Nat) : Prop := 0x3f ≤ op ∧ op ≤ 0x40
/-- Those with none. br_table is 0x0e, call_indirect 0x11, the constants 0x41 to 0x44. -/
def PlainOp (op : Nat) : Prop :=
  Opcode op ∧ ¬ BlockOp op ∧ ¬ IndexOp op ∧ ¬ MemoryOp op ∧ ¬ ReservedOp op ∧ op ≠ 0x0e ∧ op ≠ 0x11 ∧
  ¬ (0x41 ≤ op ∧ op ≤ 0x44)

/-- Which encodings of 64-bit constants are allowed: all. -/
def AnyLength (_ : List Byte) : Prop := True
/-- All but the negative ones of ten bytes. -/
def NotLongNegative (bs : List Byte) : Prop := bs.length = 10 → 0 ≤ slebValue bs

/-- These bytes are this instruction. `L` says which encodings of 64-bit constants are allowed. -/
inductive EncInstr (L : List Byte → Prop) : List Byte → Expr → Prop
  | plain {op : Byte} : PlainOp op.toNat → EncInstr L [op] ⟨op, .none⟩
  | block {op t : Byte} : BlockOp op.toNat → EncInstr L [op, t] ⟨op, .typeCode t⟩
  | index {op : Byte} {bs n} : IndexOp op.toNat → EncU32 bs n → EncInstr L (op :: bs) ⟨op, .index (n.setWidth 64)⟩
  | memory {op : Byte} {as a os o} : MemoryOp op.toNat → EncU32 as a → EncU32 os o →
      EncInstr L (op :: (as ++ os)) ⟨op, .memory (a.setWidth 64) (o.setWidth 64)⟩
  | reserved {op : Byte} : ReservedOp op.toNat → EncInstr L [op, 0#8] ⟨op, .index 0#64⟩
  | table {ls l ds d} : EncVec EncU32 ls l → EncU32 ds d → EncInstr L (0x0e#8 :: (ls ++ ds)) ⟨0x0e#8, .table l d⟩
  | callIndirect {bs n} : EncU32 bs n → EncInstr L (0x11#8 :: (bs ++ [0#8])) ⟨0x11#8, .signature n 0#8⟩
  | i32 {bs n} : EncInt 32 5 bs n → EncInstr L (0x41#8 :: bs) ⟨0x41#8, .int (BitVec.ofInt 64 n)⟩
  | i64 {bs n} : EncInt 64 10 bs n → L bs → EncInstr L (0x42#8 :: bs) ⟨0x42#8, .int (BitVec.ofInt 64 n)⟩
  | f32 {n : U32} : EncInstr L (0x43#8 :: leBytes 4 n.toNat) ⟨0x43#8, .u32 n⟩
  | f64 {n : U64} : EncInstr L (0x44#8 :: leBytes 8 n.toNat) ⟨0x44#8, .u64 n⟩

/-- The instructions of version 1 that the operator table lacks: memory.size, memory.grow, and all
conversions. -/
def Missing (op : Nat) : Prop := ReservedOp op ∨ (0xa7 ≤ op ∧ op ≤ 0xbf)

/-! ### Modules -/

/-- A function type: 0x60, the parameters, no or one result. -/
inductive EncFuncType : List Byte → FunctionType → Prop
  | void {bs ps} : EncVec EncByte bs ps → EncFuncType (0x60#8 :: (bs ++ [0#8])) ⟨ps, false, 0x40#8⟩
  | value {bs ps r} : EncVec EncByte bs ps → EncFuncType (0x60#8 :: (bs ++ [1#8, r])) ⟨ps, true, r⟩

inductive EncLimits : List Byte → Limits → Prop
  | min {bs n} : EncU32 bs n → EncLimits (0#8 :: bs) ⟨n, 0#32, false⟩
  | minMax {bs n cs m} : EncU32 bs n → EncU32 cs m → EncLimits (1#8 :: (bs ++ cs)) ⟨n, m, true⟩

inductive EncGlobalType : List Byte → GlobalType → Prop
  | const {t} : EncGlobalType [t, 0#8] ⟨t, false⟩
  | var {t} : EncGlobalType [t, 1#8] ⟨t, true⟩

/-- What follows the names of an import. -/
inductive EncImportType : List Byte → ImportType → Prop
  | function {bs n} : EncU32 bs n → EncImportType (0#8 :: bs) (.function n)
  | table {t bs l} : EncLimits bs l → EncImportType (1#8 :: t :: bs) (.table t l)
  | memory {bs l} : EncLimits bs l → EncImportType (2#8 :: bs) (.memory l)
  | global {bs g} : EncGlobalType bs g → EncImportType (3#8 :: bs) (.global g)

def EncImport (bs : List Byte) (e : ImportEntry) : Prop :=
  ∃ m f t, bs = m ++ f ++ t ∧ EncName m e.module ∧ EncName f e.field ∧ EncImportType t e.type

/-- An initializer: a constant or get_global, then end. -/
def EncInit (L : List Byte → Prop) (bs : List Byte) (e : Expr) : Prop :=
  ∃ cs, bs = cs ++ [0x0b#8] ∧ EncInstr L cs e ∧ (e.op = 0x23#8 ∨ e.op = 0x41#8 ∨ e.op = 0x42#8 ∨ e.op = 0x43#8 ∨ e.op = 0x44#8)

def EncGlobal (L : List Byte → Prop) (bs : List Byte) (g : GlobalType × Expr) : Prop :=
  ∃ t e, bs = t ++ e ∧ EncGlobalType t g.1 ∧ EncInit L e g.2

def EncExport (bs : List Byte) (e : ExportEntry) : Prop :=
  ∃ f n, bs = f ++ [e.kind] ++ n ∧ EncName f e.field ∧ EncU32 n e.index

/-- An element segment: a table index, an offset, function indices. -/
structure Elements where
  table  : U32
  offset : Expr
  items  : List U32

def EncElements (L : List Byte → Prop) (bs : List Byte) (e : Elements) : Prop :=
  ∃ t o l, bs = t ++ o ++ l ∧ EncU32 t e.table ∧ EncInit L o e.offset ∧ EncVec EncU32 l e.items

def EncData (L : List Byte → Prop) (bs : List Byte) (d : DataSegment) : Prop :=
  ∃ n e l, bs = n ++ e ++ l ∧ EncU32 n d.index ∧ EncInit L e d.init ∧ EncVec EncByte l d.data

def EncLocal (bs : List Byte) (l : LocalEntry) : Prop := ∃ n, bs = n ++ [l.type] ∧ EncU32 n l.count

/-- A function: its locals and the bytes of its instructions. -/
structure Function where
  locals : List LocalEntry
  code   : List Byte
  /-- The size of both together, in bytes. -/
  size   : U32

def EncFunction (bs : List Byte) (f : Function) : Prop :=
  ∃ n l, bs = n ++ (l ++ f.code) ∧ EncU32 n f.size ∧ (l ++ f.code).length = f.size.toNat ∧ EncVec EncLocal l f.locals

/-- The contents of a section. -/
inductive Content
  | custom (name : List Byte) (payload : List Byte)
  | types (l : List FunctionType)
  | imports (l : List ImportEntry)
  | functions (l : List U32)
  | tables (l : List (Byte × Limits))
  | memories (l : List Limits)
  | globals (l : List (GlobalType × Expr))
  | exports (l : List ExportEntry)
  | start (f : U32)
  | elements (l : List Elements)
  | code (l : List Function)
  | data (l : List DataSegment)

/-- The number of a section. -/
def Content.code' : Content → Byte
  | .custom _ _ => 0#8
  | .types _ => 1#8
  | .imports _ => 2#8
  | .functions _ => 3#8
  | .tables _ => 4#8
  | .memories _ => 5#8
  | .globals _ => 6#8
  | .exports _ => 7#8
  | .start _ => 8#8
  | .elements _ => 9#8
  | .code _ => 10#8
  | .data _ => 11#8

/-- The bytes of the contents. -/
def EncContent (L : List Byte → Prop) (bs : List Byte) : Content → Prop
  | .custom n p => ∃ ns, bs = ns ++ p ∧ EncName ns n
  | .types l => EncVec EncFuncType bs l
  | .imports l => EncVec EncImport bs l
  | .functions l => EncVec EncU32 bs l
  | .tables l => EncVec (fun bs t => ∃ ls, bs = t.1 :: ls ∧ EncLimits ls t.2) bs l
  | .memories l => EncVec EncLimits bs l
  | .globals l => EncVec (EncGlobal L) bs l
  | .exports l => EncVec EncExport bs l
  | .start f => EncU32 bs f
  | .elements l => EncVec (EncElements L) bs l
  | .code l => EncVec EncFunction bs l
  | .data l => EncVec (EncData L) bs l

/-- A section: its contents and their size in bytes. -/
structure WSection where
  content : Content
  length  : U32

/-- A section: its number, the size of its contents, its contents. -/
def EncSection (L : List Byte → Prop) (bs : List Byte) (s : WSection) : Prop :=
  ∃ n p, bs = s.content.code' :: (n ++ p) ∧ EncU32 n s.length ∧ p.length = s.length.toNat ∧ EncContent L p s.content

/-- A section with any size stated, true or not. -/
def EncAnySize (L : List Byte → Prop) (bs : List Byte) (s : WSection) : Prop :=
  ∃ n p, bs = s.content.code' :: (n ++ p) ∧ EncU32 n s.length ∧ EncContent L p s.content

/-- A module: the header, then sections. (The order of the sections is left free.) -/
def EncModule (L : List Byte → Prop) (bs : List Byte) (m : List WSection) : Prop :=
  ∃ cs, bs = [0x00#8, 0x61#8, 0x73#8, 0x6d#8, 0x01#8, 0x00#8, 0x00#8, 0x00#8] ++ cs ∧ EncSeq (EncSection L) cs m

/-! ### What a visitor should be told -/

/-- A call of the visitor: a plain callback, or a function body handed over with its instructions. -/
inductive Call
  | event (e : Event)
  | body (index : Nat) (b : FunctionBody) (code : List Byte)

def elementCalls (e : Elements) : List Call :=
  let entry : ElementEntry := ⟨e.table, e.offset, BitVec.ofNat 32 e.items.length⟩
  .event (.elementEntry entry) :: (e.items.map fun n => .event (.element entry n)) ++ [.event (.elementEntryEnd entry)]

/-- What a visitor should be told about the contents. There is no callback for tables, memories and the start
function. -/
def contentCalls : Content → List Call
  | .custom _ _ => []
  | .types l => .event (.typeSection (BitVec.ofNat 64 l.length)) :: l.map fun t => .event (.functionType t)
  | .imports l => .event (.importSection (BitVec.ofNat 64 l.length)) :: l.map fun e => .event (.importEntry e)
  | .functions l => l.zipIdx.map fun (t, i) => .event (.functionEntry i t)
  | .tables _ => []
  | .memories _ => []
  | .globals l => l.map fun g => .event (.globalEntry g.1 g.2)
  | .exports l => l.map fun e => .event (.exportEntry e)
  | .start _ => []
  | .elements l => l.flatMap elementCalls
  | .code l => l.zipIdx.flatMap fun (f, i) =>
      [.body i ⟨f.size, f.locals⟩ f.code, .event (.functionBodyEnd ⟨f.size, f.locals⟩)]
  | .data l => l.map fun d => .event (.dataSegment d)

def sectionCalls (s : WSection) : List Call :=
  let name := match s.content with
    | .custom n _ => n
    | _ => []
  let sec : Section := ⟨s.content.code', s.length, name⟩
  .event (.sectionStart sec) :: contentCalls s.content ++ [.event (.sectionEnd sec)]

/-- What a visitor should be told about a module, in order. -/
def moduleCalls (m : List WSection) : List Call :=
  [.event .moduleStart, .event (.header 0x6d736100#32 1#32)] ++ m.flatMap sectionCalls ++ [.event .moduleEnd]

/-- A visitor told one thing after the other; the first that fails ends it. `bodyEffect` is what being handed
a function body does to the visitor. -/
def tell (V : Visitor σ) (bodyEffect : σ → Nat → FunctionBody → List Byte → Outcome σ) : σ → List Call → Outcome σ
  | s, [] => .ok s
  | s, .event e :: l => (V.event s e) >>= fun s => tell V bodyEffect s l
  | s, .body k b c :: l => (bodyEffect s k b c) >>= fun s => tell V bodyEffect s l

/-- The visitor keeps its part of the protocol (Visitor.hpp: "The visitor must read to the end of the
function") on the function bodies in `B`: handed such a body it consumes exactly its instructions. -/
def ReadsBodies (V : Visitor σ) (bodyEffect : σ → Nat → FunctionBody → List Byte → Outcome σ)
    (B : FunctionBody → List Byte → Prop) : Prop :=
  ∀ s k b code suf off, B b code →
    V.body s k b ⟨code ++ suf, false, false, off⟩ =
      (bodyEffect s k b code >>= fun s => .ok (s, ⟨suf, false, false, off + code.length⟩))

/-- No zero byte. -/
def NoNul (s : List Byte) : Prop := ∀ b ∈ s, b ≠ 0#8

/-- The sections that are read properly: not tables, memories and start functions, whose contents are not
consumed; no name has a zero byte; function bodies are in `B`. -/
def Readable (B : FunctionBody → List Byte → Prop) : Content → Prop
  | .custom _ _ => False
  | .types _ => True
  | .imports l => ∀ e ∈ l, NoNul e.module ∧ NoNul e.field
  | .functions _ => True
  | .tables _ => False
  | .memories _ => False
  | .globals _ => True
  | .exports l => ∀ e ∈ l, NoNul e.field
  | .start _ => False
  | .elements _ => True
  | .code l => ∀ f ∈ l, B ⟨f.size, f.locals⟩ f.code
  | .data _ => True

end Ab.Spec.Wasm
