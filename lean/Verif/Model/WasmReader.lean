import Verif.Model.WasmOps
/-! Model of core/include/Ab/Wasm/Reader.hpp, ExprReader.hpp and Expression.hpp: reading a WebAssembly binary
module from a `std::istream`, telling a visitor what is found. -/
namespace Ab.Wasm

/-! ### The stream -/

/-- A `std::istream` over a seekable file, with the `ReaderInput` (util/include/Ab/leb128.hpp:20-48) wrapped
around it: the bytes left, the flags eofbit and failbit, and the number of bytes consumed by `get` and
`read`. A `ReaderInput` counts from its construction, so its `offset()` is a difference of two of ours. -/
structure In where
  rest   : List Byte
  eof    : Bool
  fail   : Bool
  offset : Nat
deriving Repr, DecidableEq

/-- A stream just opened. -/
def In.start (s : List Byte) : In := ⟨s, false, false, 0⟩

/-- `ReaderInput::get` (leb128.hpp:25-29): a stream that is not good, and one at its end, gives EOF (-1),
which becomes 0xff, and sets failbit; at the end eofbit too. -/
def In.get (i : In) : In × Byte :=
  if i.eof || i.fail then ({ i with fail := true }, 0xff#8)
  else match i.rest with
    | [] => ({ i with eof := true, fail := true }, 0xff#8)
    | b :: bs => ({ i with rest := bs, offset := i.offset + 1 }, b)

/-- `std::istream::read` of `n` bytes, returning what was read: sets eofbit and failbit when fewer are left. -/
def In.read (i : In) (n : Nat) : In × List Byte :=
  if i.eof || i.fail then ({ i with fail := true }, [])
  else if n ≤ i.rest.length then ({ i with rest := i.rest.drop n, offset := i.offset + n }, i.rest.take n)
  else ({ i with rest := [], eof := true, fail := true }, i.rest)

/-- `std::istream::seekg(n, std::ios::cur)`: clears eofbit; moves unless failbit is set. A file may be
positioned past its end. -/
def In.seek (i : In) (n : Nat) : In :=
  if i.fail then { i with eof := false } else { i with eof := false, rest := i.rest.drop n }

/-! ### Numbers -/

/-- The loop of `uleb128` and `leb128` (leb128.hpp:67-75, 98-105). Returns the stream, the result, the shift
and the last byte. -/
def lebLoop : Nat → In → U64 → Nat → Outcome (In × U64 × Nat × Byte)
  | 0, _, _, _ => .fuel
  | fuel + 1, i, result, shift =>
    if 63 < shift then .throw "Could not decode number"
    else
      let (i, byte) := i.get
      let result := result ||| ((byte &&& 0x7f#8).zeroExtend 64 <<< shift)
      let shift := shift + 7
      if byte &&& 0x80#8 ≠ 0#8 ∧ shift < 64 ∧ i.eof = false then lebLoop fuel i result shift
      else .ok (i, result, shift, byte)

/-- `uleb128` (leb128.hpp:90-113), which is `varuint1`, `varuint7` and `varuint32` (Reader.hpp:259-265,
leb128.hpp:115) too. The loop runs at most ten times. -/
def uleb (i : In) : Outcome (U64 × In) := do
  let (i, r, _, _) ← lebLoop 11 i 0#64 0
  pure (r, i)

/-- `leb128` (leb128.hpp:58-82). `~0 << shift` is undefined when `shift` is 64 or more. -/
def sleb (i : In) : Outcome (U64 × In) := do
  let (i, r, shift, byte) ← lebLoop 11 i 0#64 0
  if byte &&& 0x40#8 ≠ 0#8 then
    if shift < 64 then pure (r ||| (BitVec.allOnes 64 <<< shift), i)
    else .ub "shift too wide"
  else pure (r, i)

/-- The little-endian number in a list of bytes. -/
def leNat (bs : List Byte) : Nat := bs.foldr (fun b acc => b.toNat + 256 * acc) 0

/-- `readNumber` (leb128.hpp:50-56) of `n` bytes, with `ReaderInput::read` (31-39). -/
def readNumber (n : Nat) (i : In) : Outcome (Nat × In) :=
  let (j, bs) := i.read n
  if bs.length ≠ n then .throw "didn't read all the bytes like we were hoping"
  else .ok (leNat bs, j)

/-- `Reader::uint` (Reader.hpp:229-241) of `n` bytes: throws if the stream has failed already; bytes that are
not there are left zero, with no error. -/
def uint (n : Nat) (i : In) : Outcome (Nat × In) :=
  if i.fail then .throw "Could not decode number"
  else
    let (j, bs) := i.read n
    .ok (leNat bs, j)

/-- `uint8` (Reader.hpp:243), which is `type_code` (222-227) and `external_kind` (303) too. -/
def uint8 (i : In) : Outcome (Byte × In) := do
  let (n, i) ← uint 1 i
  pure (BitVec.ofNat 8 n, i)

/-- A loop of `n` rounds that fills a vector. -/
def times (f : In → Outcome (α × In)) : Nat → In → Outcome (List α × In)
  | 0, i => .ok ([], i)
  | n + 1, i => do
    let (a, i) ← f i
    let (l, i) ← times f n i
    pure (a :: l, i)

/-! ### Expressions -/

/-- An immediate: the `Value` types of Expression.hpp:41-153. -/
inductive Imm
  | none
  | typeCode (t : Byte)
  | index (n : U64)
  | signature (index : U32) (reserved : Byte)
  | int (n : U64)
  | u32 (n : U32)
  | u64 (n : U64)
  | table (targets : List U32) (dflt : U32)
  | memory (flags offset : U64)
deriving Repr, DecidableEq

/-- An expression: `Expr` (Expression.hpp:155-162), with its immediate. -/
structure Expr where
  op  : Byte
  imm : Imm
deriving Repr, DecidableEq

/-- The kinds of immediates. -/
inductive ImmKind | none | typeCode | index | signature | int | u32 | u64 | table | memory
deriving Repr, DecidableEq

/-- `OpTraits<op>::ExprType` (Expression.hpp:206-1190) of an operator code: which immediates it has.
Everything not listed is `NullaryExpr`. -/
def immKind (op : Nat) : ImmKind :=
  if op = 0x02 ∨ op = 0x03 ∨ op = 0x04 then .typeCode
  else if op = 0x0c ∨ op = 0x0d ∨ op = 0x10 then .index
  else if op = 0x0e then .table
  else if op = 0x11 then .signature
  else if op = 0x20 ∨ op = 0x21 ∨ op = 0x22 ∨ op = 0x23 ∨ op = 0x24 then .index
  else if 0x28 ≤ op ∧ op ≤ 0x3e then .memory
  else if op = 0x41 ∨ op = 0x42 then .int
  else if op = 0x43 then .u32
  else if op = 0x44 then .u64
  else .none

/-- `ReadImmediates` (Expression.hpp:170-204), through the `read` of each immediate class (41-153).
`mem` is the largest allocation that succeeds, in bytes. -/
def readImm (mem : Nat) : ImmKind → In → Outcome (Imm × In)
  | .none, i => .ok (.none, i)
  | .typeCode, i => let (i, b) := i.get; .ok (.typeCode b, i)
  | .index, i => do
    let (n, i) ← uleb i
    pure (.index n, i)
  | .signature, i => do
    let (n, i) ← uleb i
    let (r, i) ← uleb i
    pure (.signature (n.setWidth 32) (r.setWidth 8), i)
  | .int, i => do
    let (n, i) ← sleb i
    pure (.int n, i)
  | .u32, i => do
    let (n, i) ← readNumber 4 i
    pure (.u32 (BitVec.ofNat 32 n), i)
  | .u64, i => do
    let (n, i) ← readNumber 8 i
    pure (.u64 (BitVec.ofNat 64 n), i)
  | .table, i => do
    let (count, i) ← uleb i
    if mem < 4 * count.toNat then .throw "std::bad_alloc"
    else
      let (l, i) ← times uleb count.toNat i
      let (d, i) ← uleb i
      pure (.table (l.map (·.setWidth 32)) (d.setWidth 32), i)
  | .memory, i => do
    let (f, i) ← uleb i
    let (o, i) ← uleb i
    pure (.memory f o, i)

/-- One round of `ExprReader` (ExprReader.hpp:32-34): `opDispatch` (OpCode.hpp.jinja:30-39) ends the process
on an operator that is not in the table. -/
def readExpr (mem : Nat) (i : In) : Outcome (Expr × In) :=
  let (i, op) := i.get
  match opName op with
  | none => .trap "exit(-1)"
  | some _ => do
    let (imm, i) ← readImm mem (immKind op.toNat) i
    pure (⟨op, imm⟩, i)

/-- `ExprReader` (ExprReader.hpp:26-38): reads expressions, passing each to `f`, until `size` bytes were
consumed since `start`. -/
def readExprs (mem : Nat) (f : σ → Expr → Outcome σ) (start size : Nat) : Nat → σ → In → Outcome (σ × In)
  | 0, _, _ => .fuel
  | fuel + 1, s, i => do
    let (e, i) ← readExpr mem i
    let s ← f s e
    if i.offset - start < size then readExprs mem f start size fuel s i else pure (s, i)

/-! ### What the visitor is told -/

/-- `Section` (Section.hpp:32-36). -/
structure Section where
  code   : Byte
  length : U32
  name   : List Byte
deriving Repr, DecidableEq

/-- `ResizableLimits` (Ir.hpp:40-44). -/
structure Limits where
  initial : U32
  max     : U32
  hasMax  : Bool
deriving Repr, DecidableEq

/-- `GlobalType` (Ir.hpp:35-38). -/
structure GlobalType where
  content  : Byte
  isMutable : Bool
deriving Repr, DecidableEq

/-- `FunctionType` (Ir.hpp:29-33). -/
structure FunctionType where
  params    : List Byte
  hasReturn : Bool
  ret       : Byte
deriving Repr, DecidableEq

/-- The `type` of an `ImportEntry` (Ir.hpp:61-66). -/
inductive ImportType
  | function (type : U32)
  | table (element : Byte) (limits : Limits)
  | memory (limits : Limits)
  | global (type : GlobalType)
deriving Repr, DecidableEq

/-- `ImportEntry` (Ir.hpp:57-67). -/
structure ImportEntry where
  module : List Byte
  field  : List Byte
  type   : ImportType
deriving Repr, DecidableEq

/-- `ExportEntry` (Ir.hpp:69-73). -/
structure ExportEntry where
  field : List Byte
  kind  : Byte
  index : U32
deriving Repr, DecidableEq

/-- `ElementEntry` (Ir.hpp:88-92). -/
structure ElementEntry where
  index  : U32
  offset : Expr
  count  : U32
deriving Repr, DecidableEq

/-- `LocalEntry` (Ir.hpp:94-97). -/
structure LocalEntry where
  count : U32
  type  : Byte
deriving Repr, DecidableEq

/-- `FunctionBody` (Ir.hpp:99-102). -/
structure FunctionBody where
  size   : U32
  locals : List LocalEntry
deriving Repr, DecidableEq

/-- `DataSegment` (Ir.hpp:104-108). -/
structure DataSegment where
  index : U32
  init  : Expr
  data  : List Byte
deriving Repr, DecidableEq

/-- The callbacks of `Visitor` (Visitor.hpp:18-90) that `Reader` calls, with their arguments; `function_body`
is apart, because it also reads. -/
inductive Event
  | moduleStart
  | moduleEnd
  | header (magic version : U32)
  | sectionStart (s : Section)
  | sectionEnd (s : Section)
  | typeSection (count : U64)
  | functionType (t : FunctionType)
  | importSection (count : U64)
  | importEntry (e : ImportEntry)
  | functionEntry (i : Nat) (type : U32)
  | globalEntry (type : GlobalType) (init : Expr)
  | exportEntry (e : ExportEntry)
  | elementEntry (e : ElementEntry)
  | element (e : ElementEntry) (index : U32)
  | elementEntryEnd (e : ElementEntry)
  | functionBodyEnd (b : FunctionBody)
  | dataSegment (s : DataSegment)
deriving Repr, DecidableEq

/-- A `Visitor` with state `σ`, and the largest allocation that succeeds, in bytes. -/
structure Visitor (σ : Type) where
  mem   : Nat
  event : σ → Event → Outcome σ
  body  : σ → Nat → FunctionBody → In → Outcome (σ × In)

/-- A loop of `n` rounds, counted from `k`, that calls the visitor. -/
def rounds (f : Nat → σ → In → Outcome (σ × In)) : Nat → Nat → σ → In → Outcome (σ × In)
  | 0, _, s, i => .ok (s, i)
  | n + 1, k, s, i => do
    let (s, i) ← f k s i
    rounds f n (k + 1) s i

/-! ### The reader -/

/-- `string` (Reader.hpp:189-202): `n + 1` bytes are allocated, `n` read, and the result ends at the first
zero byte. With `n = 2^64 - 1` nothing is allocated and `buffer[n]` is written. -/
def string (mem : Nat) (i : In) : Outcome (List Byte × In) := do
  let (n, i) ← uleb i
  if n.toNat + 1 = 2^64 then .ub "write outside the buffer"
  else if mem < n.toNat + 1 then .throw "std::bad_alloc"
  else
    let (i, bs) := i.read n.toNat
    pure (bs.takeWhile (· ≠ 0#8), i)

/-- `resizable_limits` (Reader.hpp:177-185). -/
def limits (i : In) : Outcome (Limits × In) := do
  let (h, i) ← uleb i
  let (a, i) ← uleb i
  if h ≠ 0#64 then
    let (b, i) ← uleb i
    pure (⟨a.setWidth 32, b.setWidth 32, true⟩, i)
  else pure (⟨a.setWidth 32, 0#32, false⟩, i)

/-- `global_type` (Reader.hpp:204-207). -/
def globalType (i : In) : Outcome (GlobalType × In) := do
  let (t, i) ← uint8 i
  let (m, i) ← uleb i
  pure (⟨t, m ≠ 0#64⟩, i)

/-- `function_type` (Reader.hpp:355-381). -/
def functionType (mem : Nat) (i : In) : Outcome (FunctionType × In) := do
  let (t, i) ← uint8 i
  if t ≠ 0x60#8 then .throw "Expected function type, got something else."
  else
    let (count, i) ← uleb i
    if mem < count.toNat then .throw "std::bad_alloc"
    else
      let (params, i) ← times uint8 count.toNat i
      let (h, i) ← uleb i
      if h ≠ 0#64 then
        let (r, i) ← uint8 i
        pure (⟨params, true, r⟩, i)
      else pure (⟨params, false, 0x40#8⟩, i)

/-- The `switch` of `import_entry` (Reader.hpp:282-298). -/
def importType (kind : Byte) (i : In) : Outcome (ImportType × In) :=
  if kind = 0#8 then do
    let (n, i) ← uleb i
    pure (.function (n.setWidth 32), i)
  else if kind = 1#8 then do
    let (t, i) ← uint8 i
    let (l, i) ← limits i
    pure (.table t l, i)
  else if kind = 2#8 then do
    let (l, i) ← limits i
    pure (.memory l, i)
  else if kind = 3#8 then do
    let (g, i) ← globalType i
    pure (.global g, i)
  else .throw "Unknown external kind code"

/-- `import_entry` (Reader.hpp:275-301). -/
def importEntry (mem : Nat) (i : In) : Outcome (ImportEntry × In) := do
  let (m, i) ← string mem i
  let (f, i) ← string mem i
  let (k, i) ← uint8 i
  let (t, i) ← importType k i
  pure (⟨m, f, t⟩, i)

/-- `init_expr` (Reader.hpp:383-391) with `SetInitExpr` (35-53): one expression, which must be a constant or
get_global, and one more, whatever it is. -/
def initExpr (mem : Nat) (i : In) : Outcome (Expr × In) := do
  let (e, i) ← readExpr mem i
  if e.op = 0x23#8 ∨ e.op = 0x41#8 ∨ e.op = 0x42#8 ∨ e.op = 0x43#8 ∨ e.op = 0x44#8 then
    let (_, i) ← readExpr mem i
    pure (e, i)
  else .throw "Unexpected expression in initialization expression"

/-- `export_entry` (Reader.hpp:401-407). -/
def exportEntry (mem : Nat) (i : In) : Outcome (ExportEntry × In) := do
  let (f, i) ← string mem i
  let (k, i) ← uint8 i
  let (n, i) ← uleb i
  pure (⟨f, k, n.setWidth 32⟩, i)

/-- `local_entry` (Reader.hpp:459-464). -/
def localEntry (i : In) : Outcome (LocalEntry × In) := do
  let (n, i) ← uleb i
  let (t, i) ← uint8 i
  pure (⟨n.setWidth 32, t⟩, i)

variable (V : Visitor σ)

/-- A round of `type_section` (Reader.hpp:350-352). -/
def typeRound (_ : Nat) (s : σ) (i : In) : Outcome (σ × In) := do
  let (t, i) ← functionType V.mem i
  let s ← V.event s (.functionType t)
  pure (s, i)

/-- `type_section` (Reader.hpp:347-353). -/
def typeSection (s : σ) (i : In) : Outcome (σ × In) := do
  let (n, i) ← uleb i
  let s ← V.event s (.typeSection n)
  rounds (typeRound V) n.toNat 0 s i

/-- A round of `import_section` (Reader.hpp:270-272, 300). -/
def importRound (_ : Nat) (s : σ) (i : In) : Outcome (σ × In) := do
  let (e, i) ← importEntry V.mem i
  let s ← V.event s (.importEntry e)
  pure (s, i)

/-- `import_section` (Reader.hpp:267-273). -/
def importSection (s : σ) (i : In) : Outcome (σ × In) := do
  let (n, i) ← uleb i
  let s ← V.event s (.importSection n)
  rounds (importRound V) n.toNat 0 s i

/-- A round of `function_section` (Reader.hpp:307-310). -/
def functionRound (k : Nat) (s : σ) (i : In) : Outcome (σ × In) := do
  let (t, i) ← uleb i
  let s ← V.event s (.functionEntry k (t.setWidth 32))
  pure (s, i)

/-- `function_section` (Reader.hpp:305-311). -/
def functionSection (s : σ) (i : In) : Outcome (σ × In) := do
  let (n, i) ← uleb i
  rounds (functionRound V) n.toNat 0 s i

/-- `global_entry` (Reader.hpp:332-343). -/
def globalRound (_ : Nat) (s : σ) (i : In) : Outcome (σ × In) := do
  let (t, i) ← globalType i
  let (e, i) ← initExpr V.mem i
  let s ← V.event s (.globalEntry t e)
  pure (s, i)

/-- `global_section` (Reader.hpp:325-330). -/
def globalSection (s : σ) (i : In) : Outcome (σ × In) := do
  let (n, i) ← uleb i
  rounds (globalRound V) n.toNat 0 s i

/-- A round of `export_section` (Reader.hpp:396-398, 406). -/
def exportRound (_ : Nat) (s : σ) (i : In) : Outcome (σ × In) := do
  let (e, i) ← exportEntry V.mem i
  let s ← V.event s (.exportEntry e)
  pure (s, i)

/-- `export_section` (Reader.hpp:394-399). -/
def exportSection (s : σ) (i : In) : Outcome (σ × In) := do
  let (n, i) ← uleb i
  rounds (exportRound V) n.toNat 0 s i

/-- The inner loop of `element_entry` (Reader.hpp:428-431). -/
def elementItem (e : ElementEntry) (_ : Nat) (s : σ) (i : In) : Outcome (σ × In) := do
  let (n, i) ← uleb i
  let s ← V.event s (.element e (n.setWidth 32))
  pure (s, i)

/-- `element_entry` (Reader.hpp:422-433). -/
def elementRound (_ : Nat) (s : σ) (i : In) : Outcome (σ × In) := do
  let (n, i) ← uleb i
  let (o, i) ← initExpr V.mem i
  let (c, i) ← uleb i
  let e : ElementEntry := ⟨n.setWidth 32, o, c.setWidth 32⟩
  let s ← V.event s (.elementEntry e)
  let (s, i) ← rounds (elementItem V e) e.count.toNat 0 s i
  let s ← V.event s (.elementEntryEnd e)
  pure (s, i)

/-- `element_section` (Reader.hpp:415-420). -/
def elementSection (s : σ) (i : In) : Outcome (σ × In) := do
  let (n, i) ← uleb i
  rounds (elementRound V) n.toNat 0 s i

/-- `function_body` (Reader.hpp:443-457). -/
def bodyRound (k : Nat) (s : σ) (i : In) : Outcome (σ × In) := do
  let (size, i) ← uleb i
  let (count, i) ← uleb i
  if V.mem < 8 * count.toNat then .throw "std::bad_alloc"
  else
    let (locals, i) ← times localEntry count.toNat i
    let b : FunctionBody := ⟨size.setWidth 32, locals⟩
    let (s, i) ← V.body s k b i
    let s ← V.event s (.functionBodyEnd b)
    pure (s, i)

/-- `code_section` (Reader.hpp:436-441). -/
def codeSection (s : σ) (i : In) : Outcome (σ × In) := do
  let (n, i) ← uleb i
  rounds (bodyRound V) n.toNat 0 s i

/-- `data_segment` (Reader.hpp:475-483): data that is not there is left zero, with no error. -/
def dataRound (_ : Nat) (s : σ) (i : In) : Outcome (σ × In) := do
  let (n, i) ← uleb i
  let (e, i) ← initExpr V.mem i
  let (size, i) ← uleb i
  if V.mem < size.toNat then .throw "std::bad_alloc"
  else
    let (i, bs) := i.read size.toNat
    let s ← V.event s (.dataSegment ⟨n.setWidth 32, e, bs ++ List.replicate (size.toNat - bs.length) 0#8⟩)
    pure (s, i)

/-- `data_section` (Reader.hpp:468-473). -/
def dataSection (s : σ) (i : In) : Outcome (σ × In) := do
  let (n, i) ← uleb i
  rounds (dataRound V) n.toNat 0 s i

/-- The `switch` of `section` (Reader.hpp:132-171). Table, memory and start sections consume nothing
(318-322, 411); a custom section is skipped from after its name (313-316), with a warning on the standard
error stream, which is not modelled. -/
def sectionBody (sec : Section) (s : σ) (i : In) : Outcome (σ × In) :=
  if sec.code = 0x1#8 then typeSection V s i
  else if sec.code = 0x2#8 then importSection V s i
  else if sec.code = 0x0#8 then .ok (s, i.seek sec.length.toNat)
  else if sec.code = 0x3#8 then functionSection V s i
  else if sec.code = 0x4#8 then .ok (s, i)
  else if sec.code = 0x5#8 then .ok (s, i)
  else if sec.code = 0x6#8 then globalSection V s i
  else if sec.code = 0x7#8 then exportSection V s i
  else if sec.code = 0x8#8 then .ok (s, i)
  else if sec.code = 0x9#8 then elementSection V s i
  else if sec.code = 0xa#8 then codeSection V s i
  else if sec.code = 0xb#8 then dataSection V s i
  else .throw "Bad section"

/-- The name of a section (Reader.hpp:126-128): only custom sections have one. -/
def sectionName (code : Byte) (i : In) : Outcome (List Byte × In) :=
  if code = 0#8 then string V.mem i else .ok ([], i)

/-- `section` (Reader.hpp:121-175). -/
def «section» (code : Byte) (s : σ) (i : In) : Outcome (σ × In) := do
  let (len, i) ← uleb i
  let (name, i) ← sectionName V code i
  let sec : Section := ⟨code, len.setWidth 32, name⟩
  let s ← V.event s (.sectionStart sec)
  let (s, i) ← sectionBody V sec s i
  let s ← V.event s (.sectionEnd sec)
  pure (s, i)

/-- `sections` (Reader.hpp:105-113) with `sectionCode` (115-118). -/
def sections : Nat → σ → In → Outcome (σ × In)
  | 0, _, _ => .fuel
  | fuel + 1, s, i =>
    if i.eof then .ok (s, i)
    else do
      let (code, i) ← uleb i
      if i.eof then pure (s, i)
      else
        let (s, i) ← «section» V (code.setWidth 8) s i
        sections fuel s i

/-- `header` (Reader.hpp:80-84), with `magic` (86-92) and `version` (94-100). -/
def header (s : σ) (i : In) : Outcome (σ × In) := do
  let (m, i) ← uint 4 i
  if m ≠ 0x6d736100 then .throw "Invalid Header"
  else
    let (v, i) ← uint 4 i
    if v ≠ 1 then .throw "Invalid Header"
    else
      let s ← V.event s (.header (BitVec.ofNat 32 m) (BitVec.ofNat 32 v))
      pure (s, i)

/-- `module` (Reader.hpp:72-77): `Reader::operator()`. Every round of `sections` consumes a byte or ends, so
the fuel is enough. -/
def readModule (s : σ) (bytes : List Byte) : Outcome (σ × In) := do
  let s ← V.event s .moduleStart
  let (s, i) ← header V s (In.start bytes)
  let (s, i) ← sections V (bytes.length + 2) s i
  let s ← V.event s .moduleEnd
  pure (s, i)

end Ab.Wasm
