import Verif.Model.Interp

/-!
Several contexts in one process: `Context` owns an `Interpreter` with its own stack (core/include/Ab/VirtualMachine.hpp:64-102,
core/src/ab-core-Interpreter.cpp.jinja:278-291), `static_call` (VirtualMachine.hpp:177-192) works on the context it is given. The
memory is one for all. Simplification: the calls come one after the other (the code starts no threads and the interpreter calls
back into no native code).
-/

namespace Ab

/-- The process: its memory, and the `ExecState` of each context (whose own `mem` field is not used). -/
structure World where
  mem : Mem
  state : Nat → ExecState

/-- A call of `static_call` on context `ctx`. -/
structure CtxCall where
  ctx : Nat
  func : FuncInst
  rets : List CType
  args : List (CType × Nat)

/-- One call (VirtualMachine.hpp:177-192): the values, and the process afterwards. `env c` is where the stack of context `c`
and the module bytes are. -/
def World.call (env : Nat → Env) (fuel : Nat) (w : World) (c : CtxCall) : Outcome (List Nat × World) := do
  let (vs, st) ← staticCall (env c.ctx) fuel { w.state c.ctx with mem := w.mem } c.func c.rets c.args
  .ok (vs, ⟨st.mem, fun d => if d = c.ctx then st else w.state d⟩)

/-- A history of calls: for each its context and its values. -/
def World.calls (env : Nat → Env) (fuel : Nat) : World → List CtxCall → Outcome (List (Nat × List Nat) × World)
  | w, [] => .ok ([], w)
  | w, c :: cs => do
    let (vs, w) ← w.call env fuel c
    let (rs, w) ← World.calls env fuel w cs
    .ok ((c.ctx, vs) :: rs, w)

end Ab
