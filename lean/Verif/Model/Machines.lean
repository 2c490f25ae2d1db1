import Verif.Model.IntrusiveList
/-!
Several virtual machines and their contexts (core/include/Ab/VirtualMachine.hpp:30-102).

A `VirtualMachine` has a list of contexts (59), of which only the root is in the machine and the links are in the contexts (97). The
machine's move constructor (37) moves the list by the list's implicit move constructor, which copies the root
(IntrusiveList.hpp:256); a context's pointer to its machine (95) is not changed.
Simplification: contexts are not moved (Model/Context.lean has that) and their interpreters are left out; machines and contexts are named
by address.
-/
namespace Ab.Vms

/-- The machines with the roots of their lists, the links of the contexts, and each context's machine. -/
structure St where
  root : Nat → Option (Option Nat)
  prev : Nat → Option Nat
  next : Nat → Option Nat
  vm   : Nat → Option Nat

/-- Nothing. -/
def St.init : St := ⟨fun _ => none, fun _ => none, fun _ => none, fun _ => none⟩

inductive Op
  /-- `VirtualMachine v(runtime);` (33) -/
  | newVm (v : Nat)
  /-- `VirtualMachine u(std::move(v));` (37) -/
  | moveVm (v u : Nat)
  /-- `~VirtualMachine()`, implicit: the list has no destructor. -/
  | endVm (v : Nat)
  /-- `Context c(&v);` (66) -/
  | create (c v : Nat)
  /-- `~Context()` (72) -/
  | destroy (c : Nat)
deriving Repr, DecidableEq

/-- The list of a machine. -/
def St.list (s : St) (r : Option Nat) : IL.L := ⟨r, s.prev, s.next⟩

/-- Writing the list of machine `v` back. -/
def St.put (s : St) (v : Nat) (l : IL.L) : St :=
  { s with root := fun x => if x = v then some l.root else s.root x, prev := l.prev, next := l.next }

/-- One operation. -/
def step (s : St) : Op → Outcome St
  | .newVm v =>
    match s.root v with
    | some _ => .ub "constructing over a live object"
    | none => .ok { s with root := fun x => if x = v then some none else s.root x }
  | .moveVm v u =>
    match s.root v, s.root u with
    | some r, none => .ok { s with root := fun x => if x = u then some r else s.root x }
    | _, _ => .ub "moving from nothing or over a live object"
  | .endVm v =>
    match s.root v with
    | none => .ub "destroying an object that does not exist"
    | some _ => .ok { s with root := fun x => if x = v then none else s.root x }
  | .create c v =>
    match s.vm c, s.root v with
    | none, some r =>                                            -- enter(), 78, 100
      .ok { s.put v (IL.add (s.list r) c) with vm := fun x => if x = c then some v else s.vm x }
    | _, _ => .ub "constructing over a live object, or on no machine"
  | .destroy c =>
    match s.vm c with
    | none => .ub "destroying an object that does not exist"
    | some v =>
      match s.root v with
      | none => .ub "the context's machine is gone"              -- leave(), 80, 102
      | some r => do
        let l ← IL.remove (s.list r) c
        .ok { s.put v l with vm := fun x => if x = c then none else s.vm x }

/-- A sequence of operations. -/
def run (s : St) : List Op → Outcome St
  | [] => .ok s
  | op :: ops => do
    let s ← step s op
    run s ops

/-- `for (Context& cx : vm.context_list())`: the contexts seen, at most `n`; visiting one that no longer exists is undefined. -/
def walk (s : St) : Nat → Option Nat → Outcome (List Nat)
  | _, none => .ok []
  | 0, some _ => .fuel
  | n + 1, some c =>
    match s.vm c with
    | none => .ub "reading a context that does not exist"
    | some _ => do
      let r ← walk s n (s.next c)
      .ok (c :: r)

/-- The contexts of machine `v`. -/
def contexts (s : St) (n v : Nat) : Outcome (List Nat) :=
  match s.root v with
  | none => .ub "no such machine"
  | some r => walk s n r

end Ab.Vms
