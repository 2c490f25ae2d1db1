import Verif.Model.LinearMemory
/-!
Several linear memories in one process (core/include/Ab/LinearMemory.hpp, core/include/Ab/VirtualMachine.hpp).

`LinearMemory` declares a destructor (LinearMemory.hpp:56) and no copy or move operations: the compiler provides the copy constructor, which
copies the members, and no move constructor. The defaulted move constructor of `VirtualMachine` (VirtualMachine.hpp:37, its member 58) therefore
copies the memory. Assignment does not exist (`const` member, LinearMemory.hpp:117).
Simplification: the rest of the process is seen through the pages it has mapped.
-/
namespace Ab.LinMem

/-- The page table; the memories in the order in which they were created, `none` once destroyed; the pages mapped by the rest of the
process, with their protection. -/
structure World where
  os : Pages
  mems : List (Option Mem)
  foreign : Pages

/-- What a process does. -/
inductive WOp
  /-- `LinearMemory m(config);` (LinearMemory.hpp:45-50), or a `VirtualMachine`, which has one (VirtualMachine.hpp:58). -/
  | create (c : Config)
  /-- `LinearMemory m(other);`, or `VirtualMachine vm(std::move(other));` (VirtualMachine.hpp:37). -/
  | copy (i : Nat)
  /-- `m.grow(n)`, `m.shrink(n)`; exceptions are caught. -/
  | request (i : Nat) (o : Op)
  /-- The end of a memory, or of the `VirtualMachine` it is in. -/
  | destroy (i : Nat)
  /-- Some other part of the process maps memory, readable and writable. -/
  | other (hint len : U64)
deriving Repr, DecidableEq

def World.get (w : World) (i : Nat) : Outcome Mem :=
  match w.mems[i]? with
  | some (some m) => .ok m
  | _ => .ub "no such memory"

/-- One step. -/
def Sys.wstep (S : Sys) (w : World) : WOp → Outcome World
  | .create c =>
    match S.ctor w.os c with
    | (os, .ok m) => .ok { w with os := os, mems := w.mems ++ [some m] }
    | (os, .throw _) => .ok { w with os := os }
    | (_, .trap e) => .trap e
    | (_, .ub e) => .ub e
    | (_, .fuel) => .fuel
  | .copy i => do
    let m ← w.get i
    .ok { w with mems := w.mems ++ [some m] }
  | .request i o => do
    let m ← w.get i
    .ok { w with os := (S.step w.os m o).1, mems := w.mems.set i (some (S.step w.os m o).2.1) }
  | .destroy i => do
    let m ← w.get i
    match S.dtor w.os m with
    | (os, .ok ()) => .ok { w with os := os, mems := w.mems.set i none }
    | (_, .throw e) => .throw e
    | (_, .trap e) => .trap e
    | (_, .ub e) => .ub e
    | (_, .fuel) => .fuel
  | .other hint len =>
    match S.mmap w.os hint len with
    | (_, none) => .ok w
    | (_, some b) => .ok { w with os := setRange w.os b (S.pagesOf len.toNat) (some .rw),
                                  foreign := setRange w.foreign b (S.pagesOf len.toNat) (some .rw) }

/-- A whole program. -/
def Sys.wrun (S : Sys) (w : World) : List WOp → Outcome World
  | [] => .ok w
  | o :: os => do
    let w ← S.wstep w o
    S.wrun w os

/-- A process that has `os0` mapped and no memories. -/
def World.start (os0 : Pages) : World := ⟨os0, [], os0⟩

end Ab.LinMem
