import Verif.Model.IntrusiveList
/-!
Model of the life of `Ab::Context` (core/include/Ab/VirtualMachine.hpp:64-102) with its interpreter's stack
(core/src/ab-core-Interpreter.cpp.jinja:278-292, core/include/Ab/Interpreter.hpp.jinja:124-145) and its place in the VM's list
of contexts. Contexts are named by address. Simplification: the VM outlives its contexts; stacks are numbered in the order of
allocation and numbers are not reused.
-/
namespace Ab.Ctx

/-- The VM's list, the contexts that exist with their `st_b.stack`, the stacks that have not been deleted. -/
structure St where
  list : IL.L
  ctx : Nat → Option Nat
  alive : Nat → Bool
  /-- Number of the next stack. -/
  next : Nat
  /-- Stacks deleted, latest first. -/
  deleted : List Nat

/-- A VM without contexts. -/
def St.init : St := ⟨IL.empty, fun _ => none, fun _ => false, 0, []⟩

/-- What can happen to contexts. -/
inductive Op where
  | create (a : Nat)          -- Context(vm)                 (VirtualMachine.hpp:66)
  | move (a b : Nat)          -- new (b) Context(std::move(*a))   (VirtualMachine.hpp:70)
  | destroy (a : Nat)         -- ~Context                    (VirtualMachine.hpp:72)
deriving Repr, DecidableEq

/-- `delete[] state_.st_b.stack` (Interpreter.cpp.jinja:292). -/
def deleteStack (s : St) (k : Nat) : Outcome St :=
  if s.alive k then .ok { s with alive := fun x => if x = k then false else s.alive x, deleted := k :: s.deleted }
  else .ub "delete[] of a deleted stack"

/-- One operation. -/
def step (s : St) : Op → Outcome St
  | .create a =>
    match s.ctx a with
    | some _ => .ub "constructing over a live object"
    | none => .ok { list := IL.add s.list a                      -- enter(), VirtualMachine.hpp:78, 100
                    ctx := fun x => if x = a then some s.next else s.ctx x
                    alive := fun x => if x = s.next then true else s.alive x
                    next := s.next + 1
                    deleted := s.deleted }
  | .move a b =>
    match s.ctx a, s.ctx b with
    | some k, none =>
      -- the defaulted move constructors copy the stack pointer (Interpreter.hpp.jinja:130) and the links
      .ok { s with list := (s.list.setPrev b (s.list.prev a)).setNext b (s.list.next a)
                   ctx := fun x => if x = b then some k else s.ctx x }
    | _, _ => .ub "moving from nothing or over a live object"
  | .destroy a =>
    match s.ctx a with
    | none => .ub "destroying an object that does not exist"
    | some k => do
      let l ← IL.remove s.list a                                  -- leave(), VirtualMachine.hpp:72, 80, 102
      deleteStack { s with list := l, ctx := fun x => if x = a then none else s.ctx x } k

/-- A sequence of operations. -/
def run (s : St) : List Op → Outcome St
  | [] => .ok s
  | op :: ops => do
    let s ← step s op
    run s ops

end Ab.Ctx
