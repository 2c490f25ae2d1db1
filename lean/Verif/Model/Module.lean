import Verif.Model.VarInt
import Verif.Model.Types

/-!
Model of the module loader (core/src/ab-core-Loading.cpp:119-248) and of the module writer
(core/include/Ab/ModuleWriter.hpp).
-/

namespace Ab

/-! ## Constants (core/include/Ab/ModuleConstants.hpp:11-29) -/

def MODULE_MAGIC : U32 := 0x62616261#32
def MODULE_VERSION : U32 := 1#32
def SEC_TYPE : Byte := 0x1#8
def SEC_FUNC : Byte := 0x3#8
def SEC_CODE : Byte := 0xa#8
/-- `SectionCode::LAST = DATA` (ModuleConstants.hpp:27-28). -/
def SEC_LAST : Byte := 0xb#8

/-! ## Loader -/

/-- `Module` (core/include/Ab/Module.hpp:79-119): the tables filled by the loader. The storage bytes are the
loader's input and are kept separately. -/
structure Module where
  types : List FuncType
  funcTypes : List U32
  funcs : List Func
deriving Repr, DecidableEq

/-- The freshly constructed module (Module.hpp:81). -/
def Module.empty : Module := ⟨[], [], []⟩

/-- `Decoder::read_section_code` (Loading.cpp:119-125). -/
def readSectionCode (bs : List Byte) (pos : Nat) : Outcome (Byte × Nat) := do
  let (code, pos) ← readByte bs pos
  if SEC_LAST < code then .throw "Invalid section code" else .ok (code, pos)

/-- A loop reading `n` value types and pushing them (Loading.cpp:159-161 and 164-166). -/
def readValTypes (bs : List Byte) : Nat → Nat → Outcome (List Byte × Nat)
  | 0, pos => .ok ([], pos)
  | n + 1, pos => do
    let (t, pos) ← readByte bs pos
    let (ts, pos) ← readValTypes bs n pos
    .ok (t :: ts, pos)

/-- One iteration of the loop of `decode_type_section` (Loading.cpp:151-166). -/
def readFuncType (bs : List Byte) (pos : Nat) : Outcome (FuncType × Nat) := do
  let (vt, pos) ← readByte bs pos
  if vt ≠ FUNC then .throw "Unexpected type in type section"
  else do
    let (nargs, pos) ← readVaru32 bs pos
    let (args, pos) ← readValTypes bs nargs.toNat pos
    let (nrets, pos) ← readVaru32 bs pos
    let (rets, pos) ← readValTypes bs nrets.toNat pos
    .ok (⟨args, rets⟩, pos)

/-- The loop of `decode_type_section` (Loading.cpp:150-167). -/
def readFuncTypes (bs : List Byte) : Nat → Nat → Outcome (List FuncType × Nat)
  | 0, pos => .ok ([], pos)
  | n + 1, pos => do
    let (t, pos) ← readFuncType bs pos
    let (ts, pos) ← readFuncTypes bs n pos
    .ok (t :: ts, pos)

/-- `decode_type_section` (Loading.cpp:145-173). -/
def decodeTypeSection (bs : List Byte) (m : Module) (pos : Nat) (size : U32) :
    Outcome (Module × Nat) := do
  let start := pos
  let (ntypes, pos) ← readVaru32 bs pos
  let (ts, pos) ← readFuncTypes bs ntypes.toNat pos
  if pos - start ≠ size.toNat then .throw "Section is the wrong size"
  else .ok ({ m with types := m.types ++ ts }, pos)

/-- The loop of `decode_func_section` (Loading.cpp:181-183). -/
def readFuncDecls (bs : List Byte) : Nat → Nat → Outcome (List U32 × Nat)
  | 0, pos => .ok ([], pos)
  | n + 1, pos => do
    let (t, pos) ← readVaru32 bs pos
    let (ts, pos) ← readFuncDecls bs n pos
    .ok (t :: ts, pos)

/-- `decode_func_section` (Loading.cpp:175-189). Simplification: the `reserve` on line 179 (which may
throw `std::bad_alloc` for a huge count) has no effect here. -/
def decodeFuncSection (bs : List Byte) (m : Module) (pos : Nat) (size : U32) :
    Outcome (Module × Nat) := do
  let start := pos
  let (nfuncs, pos) ← readVaru32 bs pos
  let (ts, pos) ← readFuncDecls bs nfuncs.toNat pos
  if pos - start ≠ size.toNat then .throw "Section is the wrong size"
  else .ok ({ m with funcTypes := m.funcTypes ++ ts }, pos)

/-- `Decoder::reposition` (Loading.cpp:26-29). `begin() <= p` always holds for the single caller
(it adds an unsigned size to a position). -/
def reposition (bs : List Byte) (p : Nat) : Outcome Nat :=
  if p ≤ bs.length then .ok p else .trap "AB_ASSERT(begin() <= p && p <= end())"

/-- `Module::type_for` (Module.hpp:109-112), returning the index of the entry as well. The function is `noexcept`, so
`std::out_of_range` from `.at` ends the process. -/
def Module.typeFor (m : Module) (funcidx : Nat) : Outcome (Nat × FuncType) :=
  match m.funcTypes[funcidx]? with
  | none => .trap "std::terminate: func_types_.at"
  | some ti =>
    match m.types[ti.toNat]? with
    | none => .trap "std::terminate: type_table_.at"
    | some t => .ok (ti.toNat, t)

/-- One iteration of the loop of `decode_code_section` (Loading.cpp:203-208). -/
def decodeCodeEntry (bs : List Byte) (m : Module) (i : Nat) (pos : Nat) : Outcome (Func × Nat) := do
  let (size, pos) ← readVaru32 bs pos
  let start := pos
  let (nregs, pos) ← readVaru32 bs pos
  let body := pos
  let pos ← reposition bs (start + size.toNat)
  let (ti, t) ← m.typeFor i
  .ok (Func.make ti m.types.length t body nregs, pos)

/-- The loop of `decode_code_section` (Loading.cpp:202-209): `n` entries left, the next has index `i`. -/
def decodeCodeEntries (bs : List Byte) (m : Module) : Nat → Nat → Nat → Outcome (List Func × Nat)
  | 0, _, pos => .ok ([], pos)
  | n + 1, i, pos => do
    let (f, pos) ← decodeCodeEntry bs m i pos
    let (fs, pos) ← decodeCodeEntries bs m n (i + 1) pos
    .ok (f :: fs, pos)

/-- `decode_code_section` (Loading.cpp:191-210). The `size` parameter is unused by the code. -/
def decodeCodeSection (bs : List Byte) (m : Module) (pos : Nat) (_size : U32) :
    Outcome (Module × Nat) := do
  let (nentries, pos) ← readVaru32 bs pos
  if nentries.toNat ≠ m.funcTypes.length then
    .throw "Mismatched number of func entries and code entries"
  else do
    let (fs, pos) ← decodeCodeEntries bs m nentries.toNat 0 pos
    .ok ({ m with funcs := m.funcs ++ fs }, pos)

/-- One iteration of the section loop of `compile` (Loading.cpp:228-244). -/
def decodeSection (bs : List Byte) (m : Module) (pos : Nat) : Outcome (Module × Nat) := do
  let (code, pos) ← readSectionCode bs pos
  let (size, pos) ← readVaru32 bs pos
  if code = SEC_TYPE then decodeTypeSection bs m pos size
  else if code = SEC_FUNC then decodeFuncSection bs m pos size
  else if code = SEC_CODE then decodeCodeSection bs m pos size
  else .trap "AB_ASSERT_UNREACHABLE: unhandled section"

/-- The section loop of `compile` (Loading.cpp:227-245), with fuel; `at_end` is `position() == end()`. -/
def compileLoop (bs : List Byte) : Nat → Module → Nat → Outcome Module
  | 0, _, _ => .fuel
  | fuel + 1, m, pos =>
    if pos = bs.length then .ok m
    else do
      let (m, pos) ← decodeSection bs m pos
      compileLoop bs fuel m pos

/-- The header checks of `compile` (Loading.cpp:217-225). -/
def readHeader (bs : List Byte) : Outcome Nat := do
  let (magic, pos) ← readU32 bs 0
  if magic ≠ MODULE_MAGIC then .throw "Invalid header"
  else do
    let (version, pos) ← readU32 bs pos
    if version ≠ MODULE_VERSION then .throw "Unhandled version"
    else .ok pos

/-- `compile` (Loading.cpp:212-248). The fuel is the number of bytes plus one; `C07` shows that it is
never used up. -/
def compile (bs : List Byte) : Outcome Module := do
  let pos ← readHeader bs
  compileLoop bs (bs.length + 1) Module.empty pos

/-! ## Writer (core/include/Ab/ModuleWriter.hpp)

`ByteBuffer` is modelled by the appended bytes. `append_varuint32(buffer, x.size())` narrows a
`std::size_t` to 32 bits. -/

/-- Little-endian bytes of a 32-bit value, as appended by `ByteBuffer::append<std::uint32_t>`. -/
def leU32 (v : U32) : List Byte :=
  [v.extractLsb' 0 8, v.extractLsb' 8 8, v.extractLsb' 16 8, v.extractLsb' 24 8]

/-- `append_varuint32(buffer, n)` for a `std::size_t` `n`. -/
def varSize (n : Nat) : List Byte := appendVaruint32 (BitVec.ofNat 32 n)

/-- `append_type` (ModuleWriter.hpp:19-29). -/
def appendType (t : FuncType) : List Byte :=
  [FUNC] ++ varSize t.args.length ++ t.args ++ varSize t.rets.length ++ t.rets

/-- One code entry held by a `CodeWriter`: `nregs_` and `body_` (ModuleWriter.hpp:78-80). -/
structure CodeEntry where
  nregs : U32
  body : List Byte
deriving Repr, DecidableEq

/-- `CodeWriter::append_to` (ModuleWriter.hpp:68-76). -/
def appendCode (c : CodeEntry) : List Byte :=
  let content := appendVaruint32 c.nregs ++ c.body
  varSize content.length ++ content

/-- What a `ModuleWriter` has collected (ModuleWriter.hpp:193-195). -/
structure WModule where
  types : List FuncType
  funcs : List U32
  codes : List CodeEntry
deriving Repr, DecidableEq

/-- A section: code, size, content (ModuleWriter.hpp:154-156, 171-173, 188-190). -/
def appendSection (code : Byte) (content : List Byte) : List Byte :=
  [code] ++ varSize content.length ++ content

/-- `append_type_section` (ModuleWriter.hpp:142-157). -/
def appendTypeSection (ts : List FuncType) : List Byte :=
  if ts.length = 0 then []
  else appendSection SEC_TYPE (varSize ts.length ++ (ts.map appendType).flatten)

/-- `append_func_section` (ModuleWriter.hpp:159-174). -/
def appendFuncSection (fs : List U32) : List Byte :=
  if fs.length = 0 then []
  else appendSection SEC_FUNC (varSize fs.length ++ (fs.map appendVaruint32).flatten)

/-- `append_code_section` (ModuleWriter.hpp:176-191). -/
def appendCodeSection (cs : List CodeEntry) : List Byte :=
  if cs.length = 0 then []
  else appendSection SEC_CODE (varSize cs.length ++ (cs.map appendCode).flatten)

/-- `ModuleWriter::append_module` / `finalize` (ModuleWriter.hpp:91-95, 134-140). -/
def writeModule (m : WModule) : List Byte :=
  leU32 MODULE_MAGIC ++ leU32 MODULE_VERSION ++ appendTypeSection m.types ++
    appendFuncSection m.funcs ++ appendCodeSection m.codes

end Ab
