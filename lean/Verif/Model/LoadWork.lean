import Verif.Model.Module
/-!
The loader (core/src/ab-core-Loading.cpp:119-248), with the work it does counted: the bytes it reads (each attempt to read a byte,
Loading.cpp:129-138), and the entries of function types it looks at when a function is made (Func.hpp:38-44, Types.hpp:252-272).
Not counted: checks, comparisons and appends, of which there are boundedly many for each byte read; `reserve` and the reallocations
of the tables (the subject of C97).
-/
namespace Ab

/-- What a part of the loader does: its outcome, the bytes it reads, and the type entries it looks at. -/
structure Run (α : Type) where
  out : Outcome α
  reads : Nat
  looks : Nat

namespace Run

/-- One part after another; work done before a failure counts. -/
def bind {α β : Type} (x : Run α) (f : α → Run β) : Run β :=
  match x.out with
  | .ok a => ⟨(f a).out, x.reads + (f a).reads, x.looks + (f a).looks⟩
  | .throw m => ⟨.throw m, x.reads, x.looks⟩
  | .trap m => ⟨.trap m, x.reads, x.looks⟩
  | .ub m => ⟨.ub m, x.reads, x.looks⟩
  | .fuel => ⟨.fuel, x.reads, x.looks⟩

/-- Something that takes no work worth counting. -/
def free {α : Type} (o : Outcome α) : Run α := ⟨o, 0, 0⟩

instance : Monad Run where
  pure a := free (.ok a)
  bind := bind

end Run

/-- `Decoder::read<T>` for a one-byte `T` (Loading.cpp:129-138). -/
def readByteW (bs : List Byte) (pos : Nat) : Run (Byte × Nat) := ⟨readByte bs pos, 1, 0⟩

/-- `Decoder::read<std::uint32_t>` (Loading.cpp:109, 129-138): four bytes. -/
def readU32W (bs : List Byte) (pos : Nat) : Run (U32 × Nat) := ⟨readU32 bs pos, 4, 0⟩

/-- The loop of `Decoder::read_varu<32, std::uint32_t>` (Loading.cpp:89-96). -/
def readVaruLoopW (bs : List Byte) (pos shift : Nat) (result : U32) : Run (U32 × Nat) :=
  if _h : 32 ≤ shift then .free (.throw "Number exeeded maximum size")
  else do
    let (byte, pos) ← readByteW bs pos
    let result := result ||| ((byte &&& 0x7f#8).setWidth 32 <<< shift)
    if (byte &&& 0x80#8) ≠ 0#8 then readVaruLoopW bs pos (shift + 7) result
    else .free (.ok (result, pos))
termination_by 32 - shift

/-- `Decoder::read_varu32` (Loading.cpp:101). -/
def readVaru32W (bs : List Byte) (pos : Nat) : Run (U32 × Nat) := readVaruLoopW bs pos 0 0#32

/-- `Decoder::read_section_code` (Loading.cpp:119-125). -/
def readSectionCodeW (bs : List Byte) (pos : Nat) : Run (Byte × Nat) := do
  let (code, pos) ← readByteW bs pos
  if SEC_LAST < code then .free (.throw "Invalid section code") else .free (.ok (code, pos))

/-- Loading.cpp:159-161 and 164-166. -/
def readValTypesW (bs : List Byte) : Nat → Nat → Run (List Byte × Nat)
  | 0, pos => .free (.ok ([], pos))
  | n + 1, pos => do
    let (t, pos) ← readByteW bs pos
    let (ts, pos) ← readValTypesW bs n pos
    .free (.ok (t :: ts, pos))

/-- Loading.cpp:151-166. -/
def readFuncTypeW (bs : List Byte) (pos : Nat) : Run (FuncType × Nat) := do
  let (vt, pos) ← readByteW bs pos
  if vt ≠ FUNC then .free (.throw "Unexpected type in type section")
  else do
    let (nargs, pos) ← readVaru32W bs pos
    let (args, pos) ← readValTypesW bs nargs.toNat pos
    let (nrets, pos) ← readVaru32W bs pos
    let (rets, pos) ← readValTypesW bs nrets.toNat pos
    .free (.ok (⟨args, rets⟩, pos))

/-- Loading.cpp:150-167. -/
def readFuncTypesW (bs : List Byte) : Nat → Nat → Run (List FuncType × Nat)
  | 0, pos => .free (.ok ([], pos))
  | n + 1, pos => do
    let (t, pos) ← readFuncTypeW bs pos
    let (ts, pos) ← readFuncTypesW bs n pos
    .free (.ok (t :: ts, pos))

/-- `decode_type_section` (Loading.cpp:145-173). -/
def decodeTypeSectionW (bs : List Byte) (m : Module) (pos : Nat) (size : U32) : Run (Module × Nat) := do
  let start := pos
  let (ntypes, pos) ← readVaru32W bs pos
  let (ts, pos) ← readFuncTypesW bs ntypes.toNat pos
  if pos - start ≠ size.toNat then .free (.throw "Section is the wrong size")
  else .free (.ok ({ m with types := m.types ++ ts }, pos))

/-- Loading.cpp:181-183. -/
def readFuncDeclsW (bs : List Byte) : Nat → Nat → Run (List U32 × Nat)
  | 0, pos => .free (.ok ([], pos))
  | n + 1, pos => do
    let (t, pos) ← readVaru32W bs pos
    let (ts, pos) ← readFuncDeclsW bs n pos
    .free (.ok (t :: ts, pos))

/-- `decode_func_section` (Loading.cpp:175-189). -/
def decodeFuncSectionW (bs : List Byte) (m : Module) (pos : Nat) (size : U32) : Run (Module × Nat) := do
  let start := pos
  let (nfuncs, pos) ← readVaru32W bs pos
  let (ts, pos) ← readFuncDeclsW bs nfuncs.toNat pos
  if pos - start ≠ size.toNat then .free (.throw "Section is the wrong size")
  else .free (.ok ({ m with funcTypes := m.funcTypes ++ ts }, pos))

/-- `Func::Func` (Func.hpp:38-44): `arg_nregs` and `ret_nregs` go through the type (Types.hpp:252-258, 264-270). -/
def makeFuncW (ti n : Nat) (t : FuncType) (body : Nat) (nregs : U32) : Run Func :=
  ⟨.ok (Func.make ti n t body nregs), 0, t.args.length + t.rets.length⟩

/-- Loading.cpp:203-208. -/
def decodeCodeEntryW (bs : List Byte) (m : Module) (i : Nat) (pos : Nat) : Run (Func × Nat) := do
  let (size, pos) ← readVaru32W bs pos
  let start := pos
  let (nregs, pos) ← readVaru32W bs pos
  let body := pos
  let pos ← .free (reposition bs (start + size.toNat))
  let (ti, t) ← .free (m.typeFor i)
  let f ← makeFuncW ti m.types.length t body nregs
  .free (.ok (f, pos))

/-- Loading.cpp:202-209. -/
def decodeCodeEntriesW (bs : List Byte) (m : Module) : Nat → Nat → Nat → Run (List Func × Nat)
  | 0, _, pos => .free (.ok ([], pos))
  | n + 1, i, pos => do
    let (f, pos) ← decodeCodeEntryW bs m i pos
    let (fs, pos) ← decodeCodeEntriesW bs m n (i + 1) pos
    .free (.ok (f :: fs, pos))

/-- `decode_code_section` (Loading.cpp:191-210). -/
def decodeCodeSectionW (bs : List Byte) (m : Module) (pos : Nat) (_size : U32) : Run (Module × Nat) := do
  let (nentries, pos) ← readVaru32W bs pos
  if nentries.toNat ≠ m.funcTypes.length then .free (.throw "Mismatched number of func entries and code entries")
  else do
    let (fs, pos) ← decodeCodeEntriesW bs m nentries.toNat 0 pos
    .free (.ok ({ m with funcs := m.funcs ++ fs }, pos))

/-- Loading.cpp:228-244. -/
def decodeSectionW (bs : List Byte) (m : Module) (pos : Nat) : Run (Module × Nat) := do
  let (code, pos) ← readSectionCodeW bs pos
  let (size, pos) ← readVaru32W bs pos
  if code = SEC_TYPE then decodeTypeSectionW bs m pos size
  else if code = SEC_FUNC then decodeFuncSectionW bs m pos size
  else if code = SEC_CODE then decodeCodeSectionW bs m pos size
  else .free (.trap "AB_ASSERT_UNREACHABLE: unhandled section")

/-- Loading.cpp:227-245. -/
def compileLoopW (bs : List Byte) : Nat → Module → Nat → Run Module
  | 0, _, _ => .free .fuel
  | fuel + 1, m, pos =>
    if pos = bs.length then .free (.ok m)
    else do
      let (m, pos) ← decodeSectionW bs m pos
      compileLoopW bs fuel m pos

/-- Loading.cpp:217-225. -/
def readHeaderW (bs : List Byte) : Run Nat := do
  let (magic, pos) ← readU32W bs 0
  if magic ≠ MODULE_MAGIC then .free (.throw "Invalid header")
  else do
    let (version, pos) ← readU32W bs pos
    if version ≠ MODULE_VERSION then .free (.throw "Unhandled version")
    else .free (.ok pos)

/-- `compile` (Loading.cpp:212-248). -/
def compileW (bs : List Byte) : Run Module := do
  let pos ← readHeaderW bs
  compileLoopW bs (bs.length + 1) Module.empty pos

end Ab
