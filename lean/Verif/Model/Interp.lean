import Verif.Model.Types

/-!
Model of the interpreter: core/src/ab-core-Interpreter.cpp.jinja, core/include/Ab/Interpreter.hpp.jinja,
core/include/Ab/State.hpp, core/include/Ab/VirtualMachine.hpp:104-197 and core/src Entry.nasm.

Addresses are natural numbers. The process memory the interpreter can touch is the stack (2048 bytes
at `stackLo`, contents `mem`) and the read-only module bytes (at `codeLo`). Any other access is `ub`.
`AB_DEBUG` is defined in the interpreter source (line 1), so the eye-catcher code is part of the model;
the trace output is not.
-/

namespace Ab

/-- Stack size (Interpreter.cpp.jinja:279). -/
def STACK_SIZE : Nat := 2048

/-- Contents of the stack, by address. -/
abbrev Mem := Nat → Byte

/-- What does not change while a context lives: where the stack is, where the module bytes are and what
they are. -/
structure Env where
  stackLo : Nat
  codeLo : Nat
  code : List Byte

def Env.stackHi (e : Env) : Nat := e.stackLo + STACK_SIZE

/-! ### Little-endian memory access -/

/-- `n` little-endian bytes of a number. -/
def natBytes : Nat → Nat → List Byte
  | _, 0 => []
  | v, n + 1 => BitVec.ofNat 8 v :: natBytes (v / 256) n

/-- The number stored in `n` bytes at `a`. -/
def readLE (mem : Mem) (a : Nat) : Nat → Nat
  | 0 => 0
  | n + 1 => (mem a).toNat + 256 * readLE mem (a + 1) n

/-- Store bytes at `a`. -/
def writeAt (mem : Mem) (a : Nat) (bs : List Byte) : Mem :=
  fun x => if a ≤ x ∧ x < a + bs.length then bs.getD (x - a) 0#8 else mem x

/-- Is `[a, a+n)` inside the stack allocation? -/
def Env.inStack (e : Env) (a n : Nat) : Bool := e.stackLo ≤ a && a + n ≤ e.stackHi

/-- A load of `n` bytes from the stack. -/
def load (e : Env) (mem : Mem) (a n : Nat) : Outcome Nat :=
  if e.inStack a n then .ok (readLE mem a n) else .ub "load outside the stack"

/-- A store of `n` bytes to the stack. -/
def store (e : Env) (mem : Mem) (a n v : Nat) : Outcome Mem :=
  if e.inStack a n then .ok (writeAt mem a (natBytes v n)) else .ub "store outside the stack"

/-- A load of a byte of code at address `a`. -/
def fetch (e : Env) (a : Nat) : Outcome Byte :=
  if e.codeLo ≤ a then
    match e.code[a - e.codeLo]? with
    | some b => .ok b
    | none => .ub "load outside the module bytes"
  else .ub "load outside the module bytes"

/-! ### State (State.hpp:62-110) -/

/-- `FuncInst` (Func.hpp:85-187): cached register counts, body address, and the type of `base()`. -/
structure FuncInst where
  type : FuncType
  nregs : U32
  body : Nat

/-- `FuncInst::nreg_bytes` (Func.hpp:147): 32-bit product. -/
def FuncInst.nregBytes (f : FuncInst) : Nat := (f.nregs * 4#32).toNat

/-- `ExecState` (State.hpp:98-104): primary state `ip`, `sp`, `fn`; secondary state `func` and the flags.
`condition` is `HALTED` from construction on (Interpreter.cpp.jinja:285) and never assigned again.
`fn` is only ever saved and restored. `mem` is the content of the stack. -/
structure ExecState where
  ip : Nat
  sp : Nat
  fn : Nat
  func : Option FuncInst
  error : Bool
  mem : Mem

/-- `Interpreter::Interpreter` (Interpreter.cpp.jinja:278-291); the stack is uninitialised, hence `mem` is a
parameter. -/
def ExecState.init (e : Env) (mem : Mem) : ExecState where
  ip := 0
  sp := e.stackHi
  fn := 0
  func := none
  error := false
  mem := mem

/-! ### Instruction dispatch -/

/-- Result of executing one instruction in `do_interpret`. `exit` carries the returned pointer (0 is
`nullptr`), the committed `ip`, and whether `flags.error` is set by this instruction. -/
inductive StepRes where
  | next (ip : Nat) (mem : Mem)
  | exit (ret : Nat) (error : Bool)

/-- `ip + off` for a signed 8-bit `off` and an unsigned size: `ip += off + SIZEOF`
(Interpreter.cpp.jinja:701, 712-714, 726-728). A result below address 0 would be `ub`.
Simplification: in line 701 `off + GOTO_SIZEOF` is a `std::size_t` and wraps when negative; adding the wrapped number to the
pointer is taken to do what the machine does, step back. -/
def offsetIp (ip : Nat) (off : Byte) (size : Nat) : Outcome Nat :=
  let t : Int := (ip : Int) + off.toInt + size
  if 0 ≤ t then .ok t.toNat else .ub "instruction pointer out of range"

/-- Address of register `idx` (`reg_at`, Interpreter.cpp.jinja:113-116). -/
def regAddr (sp : Nat) (idx : Byte) : Nat := sp + idx.toNat * SIZEOF_SLOT

/-- Load of a 32-bit register. -/
def loadReg (e : Env) (mem : Mem) (sp : Nat) (idx : Byte) : Outcome U32 := do
  let v ← load e mem (regAddr sp idx) 4
  .ok (BitVec.ofNat 32 v)

/-- Signed 32-bit arithmetic (`dst = lhs + rhs` on `i32`): overflow is undefined behaviour in C++17 and C++20. -/
def checkedI32 (v : Int) : Outcome U32 :=
  if -2 ^ 31 ≤ v ∧ v < 2 ^ 31 then .ok (BitVec.ofInt 32 v) else .ub "signed integer overflow"

/-- `FrameTag::frame_kind` of the tag at `sp + func->nreg_bytes()` (Interpreter.cpp.jinja:734-735, 757-758;
Interpreter.hpp.jinja:66-68): the 32-bit value there, narrowed to 8 bits by the enum conversion. -/
def frameKind (e : Env) (mem : Mem) (sp : Nat) (func : FuncInst) : Outcome Byte := do
  let v ← load e mem (sp + func.nregBytes) 4
  .ok (BitVec.ofNat 8 v)

/-- One instruction of `do_interpret` (Interpreter.cpp.jinja:403-819): fetch the opcode at `ip`, run its
handler. `func` is `state->st_b.func`. -/
def step (e : Env) (func : FuncInst) (sp ip : Nat) (mem : Mem) : Outcome StepRes := do
  let op ← fetch e ip
  match op.toNat with
  | 0 => .ok (.exit 0 true)            -- do_unreachable, lines 676-680
  | 1 => .ok (.next (ip + 1) mem)      -- do_nop, lines 682-685
  | 4 => .ok (.exit 0 false)           -- do_halt, lines 687-690; HALT makes ab_act return nullptr (391-393)
  | 12 => do                           -- do_return, lines 731-748
    let k ← frameKind e mem sp func
    if k = 0#8 then .ok (.exit 0 false) else .trap "AB_ASSERT_UNREACHABLE: return from a non-native frame"
  | 13 => do                           -- do_x32_return, lines 750-768 (the register is read by TRACE_PRINT)
    let idx ← fetch e (ip + 1)
    let _ ← loadReg e mem sp idx
    let k ← frameKind e mem sp func
    if k = 0#8 then .ok (.exit (regAddr sp idx) false)
    else .trap "AB_ASSERT_UNREACHABLE: x32.return from a non-native frame"
  | 22 => do                           -- do_goto, lines 697-703
    let off ← fetch e (ip + 1)
    let ip ← offsetIp ip off 2
    .ok (.next ip mem)
  | 23 => do                           -- do_goto_if, lines 705-716
    let idx ← fetch e (ip + 1)
    let off ← fetch e (ip + 2)
    let v ← loadReg e mem sp idx
    let ip ← offsetIp ip (if v ≠ 0#32 then off else 0#8) 3
    .ok (.next ip mem)
  | 24 => do                           -- do_goto_unless, lines 718-729
    let idx ← fetch e (ip + 1)
    let off ← fetch e (ip + 2)
    let v ← loadReg e mem sp idx
    let ip ← offsetIp ip (if v = 0#32 then off else 0#8) 3
    .ok (.next ip mem)
  | 106 => do                          -- do_i32_add, lines 784-799
    let dst ← fetch e (ip + 1)
    let lhs ← fetch e (ip + 2)
    let rhs ← fetch e (ip + 3)
    let a ← loadReg e mem sp lhs
    let b ← loadReg e mem sp rhs
    let r ← checkedI32 (a.toInt + b.toInt)
    let mem ← store e mem (regAddr sp dst) 4 r.toNat
    .ok (.next (ip + 4) mem)
  | 107 => do                          -- do_i32_sub, lines 801-816
    let dst ← fetch e (ip + 1)
    let lhs ← fetch e (ip + 2)
    let rhs ← fetch e (ip + 3)
    let a ← loadReg e mem sp lhs
    let b ← loadReg e mem sp rhs
    let r ← checkedI32 (a.toInt - b.toInt)
    let mem ← store e mem (regAddr sp dst) 4 r.toNat
    .ok (.next (ip + 4) mem)
  | 2 => .trap "AB_ASSERT_UNREACHABLE: call_primitive"   -- do_call_primitive, lines 692-695
  | _ => .trap "AB_ASSERT_UNREACHABLE: unimplemented"    -- do_unimplemented, lines 672-674 (table 404-663)

/-- How `do_interpret` ended: the returned pointer, the `ip` committed by `COMMIT_STATE` (lines 260-265), the
stack contents, and whether `flags.error` was set. -/
structure Exit where
  ret : Nat
  ip : Nat
  mem : Mem
  error : Bool

/-- `do_interpret` as a fuelled loop (`DISPATCH_INSN` is a jump back to the dispatch). -/
def run (e : Env) (func : FuncInst) (sp : Nat) : Nat → Nat → Mem → Outcome Exit
  | 0, _, _ => .fuel
  | fuel + 1, ip, mem => do
    let r ← step e func sp ip mem
    match r with
    | .next ip mem => run e func sp fuel ip mem
    | .exit ret err => .ok ⟨ret, ip, mem, err⟩

/-- `interpret_func` / `enter_interpreter` (Interpreter.cpp.jinja:340-351) through `ab_interpret_func`
(Entry.nasm: the condition is HALTED, so it returns) and `ab_act` (366-398). Returns the new state and the
returned pointer. -/
def interpretFunc (e : Env) (fuel : Nat) (st : ExecState) (func : FuncInst) : Outcome (ExecState × Nat) := do
  let x ← run e func st.sp fuel func.body st.mem
  .ok ({ ip := x.ip, sp := st.sp, fn := 0, func := some func, error := st.error || x.error, mem := x.mem }, x.ret)

/-! ### Native frames -/

/-- `sizeof(NativeFrame)` (Interpreter.hpp.jinja:77-91): save area ip@0, sp@8, fn@16, tag@24, padded to 32. -/
def NATIVE_FRAME_SIZE : Nat := 32

/-- The debug eye-catcher value (Interpreter.cpp.jinja:303, 334). -/
def EYECATCHER : Nat := 0xdeadbeef

/-- Moving the stack pointer down by `n`; leaving the allocation is `ub`. -/
def pushBytes (e : Env) (sp n : Nat) : Outcome Nat :=
  if e.stackLo + n ≤ sp then .ok (sp - n) else .ub "stack overflow"

/-- `enter_native_frame` (Interpreter.cpp.jinja:298-319). The tag is written by the `NativeFrame` constructor
(Interpreter.hpp.jinja:87-91); the save area is then filled in. -/
def enterNativeFrame (e : Env) (st : ExecState) (nregs : Nat) : Outcome ExecState := do
  let p ← pushBytes e st.sp 8
  let mem ← store e st.mem p 8 EYECATCHER
  let frame ← pushBytes e p NATIVE_FRAME_SIZE
  let mem ← store e mem (frame + 24) 4 0
  let mem ← store e mem (frame + 8) 8 st.sp
  let mem ← store e mem frame 8 st.ip
  let mem ← store e mem (frame + 16) 8 st.fn
  let sp ← pushBytes e frame (nregs * SIZEOF_SLOT)
  .ok { st with sp := sp, mem := mem }

/-- `leave_native_frame` (Interpreter.cpp.jinja:321-338). -/
def leaveNativeFrame (e : Env) (st : ExecState) (nregs : Nat) : Outcome ExecState := do
  let frame := st.sp + nregs * SIZEOF_SLOT
  let sp ← load e st.mem (frame + 8) 8
  let ip ← load e st.mem frame 8
  let fn ← load e st.mem (frame + 16) 8
  let eye ← load e st.mem (frame + NATIVE_FRAME_SIZE) 8
  if eye = EYECATCHER then .ok { st with sp := sp, ip := ip, fn := fn }
  else .trap "AB_ASSERT(*eyecatcher == 0xdeadbeef)"

/-! ### static_call (VirtualMachine.hpp:104-197) -/

/-- `set_stack_elements` (VirtualMachine.hpp:127-136): argument `i` is stored at its slot offset. `args` pairs
each C++ type with the bits of the value; `i` is the index of the first one in the full list `ts`. -/
def setStackElements (e : Env) (base : Nat) (ts : List CType) : Nat → List Nat → Mem → Outcome Mem
  | _, [], mem => .ok mem
  | i, v :: vs, mem => do
    let mem ← store e mem (base + nthSlotOffset i ts) ((ts.getD i .u32).sizeof) v
    setStackElements e base ts (i + 1) vs mem

/-- `get_stack_elements` (VirtualMachine.hpp:111-125): the bits of return value `i` at its slot offset. A null
`base` makes the load `ub` (address 0 is outside the stack). -/
def getStackElements (e : Env) (mem : Mem) (base : Nat) (ts : List CType) : Nat → Nat → Outcome (List Nat)
  | _, 0 => .ok []
  | i, n + 1 => do
    let v ← load e mem (base + nthSlotOffset i ts) ((ts.getD i .u32).sizeof)
    let vs ← getStackElements e mem base ts (i + 1) n
    .ok (v :: vs)

/-- `static_call<Rs...>(cx, func, as...)` (VirtualMachine.hpp:177-192): `as` are argument types and values. -/
def staticCall (e : Env) (fuel : Nat) (st : ExecState) (func : FuncInst) (rets : List CType)
    (args : List (CType × Nat)) : Outcome (List Nat × ExecState) := do
  let ok ← typesMatch (args.map (·.1)) func.type.args
  if !ok then .trap "AB_ASSERT((types_match<As...>(func_type.args)))"
  else do
    let ok ← typesMatch rets func.type.rets
    if !ok then .trap "AB_ASSERT((types_match<Rs...>(func_type.rets)))"
    else do
      let st ← enterNativeFrame e st func.nregs.toNat
      let mem ← setStackElements e st.sp (args.map (·.1)) 0 (args.map (·.2)) st.mem
      let (st, ret) ← interpretFunc e fuel { st with mem := mem } func
      let vs ← getStackElements e st.mem ret rets 0 rets.length
      let st ← leaveNativeFrame e st func.nregs.toNat
      .ok (vs, st)

/-- `ModuleInst::initialize` (Module.hpp:187-192) and `FuncInst::FuncInst(Func*)` (Func.hpp:87-93): the
function instance of a loaded function, for module bytes at address `codeLo`. -/
def instantiateFunc (codeLo : Nat) (f : Func) : FuncInst := ⟨f.type, f.nregs, codeLo + f.body⟩

end Ab
