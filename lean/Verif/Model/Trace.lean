import Verif.Model.Interp
/-!
Model of the interpreter's trace on standard error (core/src/ab-core-Interpreter.cpp.jinja).

`AB_DEBUG` is defined in that file (line 1), so `TRACE_ENTER` and `TRACE_PRINT` (246-250) print.
Simplifications: a line is kept as its parts, not as text; printing does not fail; what is printed before and after `do_interpret`
(`AB_DBG_MSG` in 298-396) is left out; after undefined behaviour nothing is said.
-/
namespace Ab.Trace

inductive Line
  /-- `  * NAME @IP` (`TRACE_ENTER`, 248). -/
  | enter (name : String) (ip : Nat)
  /-- `    WHAT idx=IDX ptr=PTR val=VAL` (`TRACE_PRINT`, 249). -/
  | shown (what : String) (idx ptr : Nat) (val : Int)
deriving Repr, DecidableEq

/-- Printing an operand of `i32.add` or `i32.sub`: the register with the number at `at`, read from the memory as it is when printed. -/
def operandLine (e : Env) (sp : Nat) (mem : Mem) (what : String) (at_ : Nat) : List Line :=
  match fetch e at_ with
  | .ok idx => [.shown what idx.toNat (regAddr sp idx) (BitVec.ofNat 32 (readLE mem (regAddr sp idx) 4)).toInt]
  | _ => []

/-- Printing the register of `x32.return`, unsigned (`x32` is `std::uint32_t`, 91). -/
def returnLine (e : Env) (sp : Nat) (mem : Mem) (at_ : Nat) : List Line :=
  match fetch e at_ with
  | .ok idx => [.shown "ret" idx.toNat (regAddr sp idx) ((BitVec.ofNat 32 (readLE mem (regAddr sp idx) 4)).toNat : Nat)]
  | _ => []

/-- What the handler of the instruction at `ip` prints (672-815); `mem` is the memory after the instruction: the values are printed
after the assignment (`dst = lhs + rhs`, 792; `dst = lhs - rhs`, 809), through references to the registers. -/
def handlerLines (e : Env) (sp ip : Nat) (mem : Mem) : List Line :=
  match fetch e ip with
  | .ok op =>
    match op.toNat with
    | 0 => [.enter "unreachable" ip]                                                   -- 677
    | 1 => [.enter "nop" ip]                                                           -- 683
    | 2 => [.enter "call_primitive" ip]                                                -- 693
    | 4 => [.enter "halt" ip]                                                          -- 688
    | 12 => [.enter "return" ip]                                                       -- 732
    | 13 => .enter "x32.return" ip :: returnLine e sp mem (ip + 1)                     -- 751, 756
    | 22 => [.enter "goto" ip]                                                         -- 698
    | 23 => [.enter "goto_if" ip]                                                      -- 706
    | 24 => [.enter "goto_unless" ip]                                                  -- 719
    | 106 => .enter "i32.add" ip :: (operandLine e sp mem "rhs" (ip + 3) ++ operandLine e sp mem "lhs" (ip + 2) ++
        operandLine e sp mem "dst" (ip + 1))                                           -- 785, 793-795
    | 107 => .enter "i32.sub" ip :: (operandLine e sp mem "rhs" (ip + 3) ++ operandLine e sp mem "lhs" (ip + 2) ++
        operandLine e sp mem "dst" (ip + 1))                                           -- 802, 810-812
    | _ => [.enter "unimplemented" ip]                                                 -- 673
  | _ => []

/-- `do_interpret` (404-819) with what it prints. -/
def run (e : Env) (func : FuncInst) (sp : Nat) : Nat → Nat → Mem → List Line × Outcome Exit
  | 0, _, _ => ([], .fuel)
  | fuel + 1, ip, mem =>
    match step e func sp ip mem with
    | .ok (.next ip' mem') =>
      let r := run e func sp fuel ip' mem'
      (handlerLines e sp ip mem' ++ r.1, r.2)
    | .ok (.exit ret err) => (handlerLines e sp ip mem, .ok ⟨ret, ip, mem, err⟩)
    | .trap w => (handlerLines e sp ip mem, .trap w)
    | .throw w => ([], .throw w)
    | .ub w => ([], .ub w)
    | .fuel => ([], .fuel)

end Ab.Trace
