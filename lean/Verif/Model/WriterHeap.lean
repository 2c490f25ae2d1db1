import Verif.Model.Builder
import Verif.Model.ByteBuffer
/-!
Model of module writing (`ModuleNode::write`, core/include/Ab/ModuleBuilder.hpp:298-302, and
core/include/Ab/ModuleWriter.hpp) on top of the allocator model of `Verif/Model/ByteBuffer.lean`: every
temporary `ByteBuffer`, every copy of one made when a `std::vector<CodeWriter>` relocates, and every
destructor run on the normal path and during unwinding is explicit.

Simplifications, stated once:
* the blocks of the standard containers (`std::vector` storage) are not in the modelled heap; whether a
  container operation throws `std::bad_alloc` is decided by arbitrary oracles;
* whether `emplace_back` relocates a vector of a given length is decided by an arbitrary oracle, so any
  growth policy is covered;
* a relocation constructs the new element first, then copies the old ones in order (libstdc++, libc++).
  `CodeWriter` declares its destructor, so it has no move constructor and relocation copies;
* the only exception is `std::bad_alloc`.
-/
namespace Ab.WH

open BB

/-- The environment: the `malloc` of the byte buffers, and the oracles of the standard containers. -/
structure WEnv where
  mem : BB.Env
  /-- does the `i`-th `type_entries_.push_back` throw? -/
  typeFails : Nat → Bool
  /-- does the `i`-th `func_entries_.push_back` throw? -/
  funcFails : Nat → Bool
  /-- does the storage allocation of the `i`-th `code_entries_.emplace_back` throw? -/
  codeFails : Nat → Bool
  /-- does `code_entries_.emplace_back` on a vector of `i` elements relocate? -/
  grows : Nat → Bool

/-- An action on one byte buffer that may throw `std::bad_alloc`. -/
abbrev W := Heap → Buf → Outcome Res

/-- Doing nothing. -/
def skip : W := fun h b => .ok ⟨h, b, false⟩

/-- Two statements in sequence: an exception skips the second. -/
def seq (w1 w2 : W) : W := fun h b => do
  let r ← w1 h b
  if r.threw then pure r else w2 r.heap r.buf

/-- A loop body run for each element of a list. -/
def each {α : Type} (f : α → W) : List α → W
  | [] => skip
  | x :: xs => seq (f x) (each f xs)

/-- `buffer.append(value)` of a trivial value with the given bytes (ByteBuffer.hpp:86-89). -/
def put (e : WEnv) (bs : List Byte) : W := fun h b => append e.mem h b bs

/-- `append_varuint32` (VarInt.hpp:20-48): one append per byte of the encoding. -/
def putVar (e : WEnv) (v : U32) : W := each (fun b => put e [b]) (appendVaruint32 v)

/-- `append_varuint32(buffer, n)` for a `std::size_t` `n`, which is narrowed. -/
def putSize (e : WEnv) (n : Nat) : W := putVar e (BitVec.ofNat 32 n)

/-- The pattern of `append_type_section`, `append_func_section`, `append_code_section` and
`CodeWriter::append_to` (ModuleWriter.hpp:69-75, 147-156): construct a local `ByteBuffer content`, fill it,
use it, and destroy it however the block is left. -/
def withContent (e : WEnv) (fill : W) (use : Buf → W) : W := fun h b =>
  match ctor e.mem h 64 with
  | (h, none) => .ok ⟨h, b, true⟩
  | (h, some c) => do
    let r ← fill h c
    if r.threw then do
      let (h, _) ← clear r.heap r.buf
      pure ⟨h, b, true⟩
    else do
      let r2 ← use r.buf r.heap b
      let (h, _) ← clear r2.heap r.buf
      pure ⟨h, r2.buf, r2.threw⟩

/-- `append_type` (ModuleWriter.hpp:19-29). -/
def putType (e : WEnv) (t : FuncType) : W :=
  seq (put e [FUNC]) <|
  seq (putSize e t.args.length) <|
  seq (each (fun a => put e [a]) t.args) <|
  seq (putSize e t.rets.length) <|
  each (fun a => put e [a]) t.rets

/-- A `CodeWriter` (ModuleWriter.hpp:33-81): `nregs_` is indeterminate until `enter_code`. -/
structure CodeW where
  nregs : Option U32
  body : Buf

/-- `CodeWriter::append_to` (ModuleWriter.hpp:68-76). -/
def putCode (e : WEnv) (c : CodeW) : W :=
  withContent e
    (seq (fun h b => match c.nregs with
        | some n => putVar e n h b
        | none => .ub "nregs_ is indeterminate")
      (fun h b => appendBuf e.mem h b c.body))
    (fun content => seq (putSize e content.size) (fun h b => appendBuf e.mem h b content))

/-- `append_type_section` (ModuleWriter.hpp:142-157). -/
def putTypeSection (e : WEnv) (ts : List FuncType) : W :=
  if ts.length = 0 then skip
  else withContent e
    (seq (putSize e ts.length) (each (putType e) ts))
    (fun content => seq (put e [SEC_TYPE]) <| seq (putSize e content.size)
      (fun h b => appendBuf e.mem h b content))

/-- `append_func_section` (ModuleWriter.hpp:159-174). -/
def putFuncSection (e : WEnv) (fs : List U32) : W :=
  if fs.length = 0 then skip
  else withContent e
    (seq (putSize e fs.length) (each (putVar e) fs))
    (fun content => seq (put e [SEC_FUNC]) <| seq (putSize e content.size)
      (fun h b => appendBuf e.mem h b content))

/-- `append_code_section` (ModuleWriter.hpp:176-191). -/
def putCodeSection (e : WEnv) (cs : List CodeW) : W :=
  if cs.length = 0 then skip
  else withContent e
    (seq (putSize e cs.length) (each (putCode e) cs))
    (fun content => seq (put e [SEC_CODE]) <| seq (putSize e content.size)
      (fun h b => appendBuf e.mem h b content))

/-- `append_module` (ModuleWriter.hpp:134-140). -/
def putModule (e : WEnv) (ts : List FuncType) (fs : List U32) (cs : List CodeW) : W :=
  seq (put e (leU32 MODULE_MAGIC)) <|
  seq (put e (leU32 MODULE_VERSION)) <|
  seq (putTypeSection e ts) <|
  seq (putFuncSection e fs) <|
  putCodeSection e cs

/-- `finalize` (ModuleWriter.hpp:91-95): pointer and length of the span, or `none` if an exception
escapes. -/
def finalize (e : WEnv) (h : Heap) (ts : List FuncType) (fs : List U32) (cs : List CodeW) :
    Outcome (Heap × Option (Option Nat × Nat)) :=
  match ctor e.mem h 64 with
  | (h, none) => .ok (h, none)
  | (h, some b) => do
    let r ← putModule e ts fs cs h b
    if r.threw then do
      let (h, _) ← clear r.heap r.buf
      pure (h, none)
    else do
      let (h, p, n, b) ← releaseSpan e.mem r.heap r.buf
      let (h, _) ← clear h b
      pure (h, some (p, n))

/-- Run the destructors of code writers. -/
def destroyAll : Heap → List CodeW → Outcome Heap
  | h, [] => .ok h
  | h, c :: cs => do
    let (h, _) ← clear h c.body
    destroyAll h cs

/-- Copy code writers in order; the copies made before a failure are destroyed. -/
def copyAll (e : WEnv) : Heap → List CodeW → Outcome (Heap × Option (List CodeW))
  | h, [] => .ok (h, some [])
  | h, c :: cs =>
    match c.nregs with
    | none => .ub "copy of an indeterminate nregs_"
    | some n => do
      match ← copyCtor e.mem h c.body with
      | (h, none) => pure (h, none)
      | (h, some b) => do
        match ← copyAll e h cs with
        | (h, none) => do
          let (h, _) ← clear h b
          pure (h, none)
        | (h, some ds) => pure (h, some (⟨some n, b⟩ :: ds))

/-- `code_entries_.emplace_back()` (VectorUtilities.hpp:12-15): the old elements, their heap, and the new
element unless it threw (then the vector is unchanged). -/
def emplaceBack (e : WEnv) (h : Heap) (cs : List CodeW) :
    Outcome (Heap × Option (List CodeW × CodeW)) :=
  if e.codeFails cs.length then .ok (h, none)
  else match ctor e.mem h 64 with
  | (h, none) => .ok (h, none)
  | (h, some b) =>
    if e.grows cs.length then do
      match ← copyAll e h cs with
      | (h, none) => do
        let (h, _) ← clear h b
        pure (h, none)
      | (h, some ds) => do
        let h ← destroyAll h cs
        pure (h, some (ds, ⟨none, b⟩))
    else .ok (h, some (cs, ⟨none, b⟩))

/-- One iteration of the loop of `FuncNode::accept` (ModuleBuilder.hpp:228-258) into a `CodeWriter`
(ModuleWriter.hpp:43-66): one append per byte. -/
def putInsn (e : WEnv) (i : Insn) : W := each (fun b => put e [b]) (writeInsn i)

/-- `accept_code_section` (ModuleBuilder.hpp:327-333) with `on_code` (ModuleWriter.hpp:131): the code
writers afterwards and whether an exception escapes. -/
def acceptCodes (e : WEnv) : Heap → List CodeW → List FuncNode → Outcome (Heap × List CodeW × Bool)
  | h, cs, [] => .ok (h, cs, false)
  | h, cs, f :: fs => do
    match ← emplaceBack e h cs with
    | (h, none) => pure (h, cs, true)
    | (h, some (cs, c)) => do
      let r ← each (putInsn e) f.insns h c.body
      let cs := cs ++ [⟨some f.nregs, r.buf⟩]
      if r.threw then pure (r.heap, cs, true) else acceptCodes e r.heap cs fs

/-- Does one of the first `n` pushes throw? -/
def anyFails (p : Nat → Bool) (n : Nat) : Bool := (List.range n).any p

/-- `ModuleNode::write` (ModuleBuilder.hpp:286-302, 308-333): visit the types, the functions and the code,
then `finalize`; the writer's members are destroyed however it ends. -/
def writeOnHeap (e : WEnv) (h : Heap) (m : ModuleNode) : Outcome (Heap × Option (Option Nat × Nat)) :=
  if anyFails e.typeFails m.types.length then .ok (h, none)
  else if anyFails e.funcFails m.funcs.length then .ok (h, none)
  else do
    let (h, cs, threw) ← acceptCodes e h [] m.funcs
    if threw then do
      let h ← destroyAll h cs
      pure (h, none)
    else do
      let (h, res) ← finalize e h m.types (m.funcs.map (·.typeIdx)) cs
      let h ← destroyAll h cs
      pure (h, res)

end Ab.WH
