import Verif.Basic
/-!
Model of `Ab::IntrusiveList` (util/include/Ab/IntrusiveList.hpp) as used by the VM's context list
(core/include/Ab/VirtualMachine.hpp:26-27, 100-102). Elements are named by address; the element objects
are assumed to stay allocated while linked (`~Context` unlinks itself, VirtualMachine.hpp:72).
-/
namespace Ab.IL

/-- The root pointer (IntrusiveList.hpp:256) and the links stored in the elements (43-44). -/
structure L where
  root : Option Nat
  prev : Nat → Option Nat
  next : Nat → Option Nat

/-- `IntrusiveList()` over fresh elements (IntrusiveList.hpp:26, 214). -/
def empty : L := ⟨none, fun _ => none, fun _ => none⟩

/-- Assign `node(x).prev`. -/
def L.setPrev (l : L) (x : Nat) (v : Option Nat) : L :=
  { l with prev := fun y => if y = x then v else l.prev y }
/-- Assign `node(x).next`. -/
def L.setNext (l : L) (x : Nat) (v : Option Nat) : L :=
  { l with next := fun y => if y = x then v else l.next y }

/-- `add` (IntrusiveList.hpp:217-223); `VirtualMachine::enter`. -/
def add (l : L) (e : Nat) : L :=
  let l := (l.setPrev e none).setNext e l.root
  let l := match l.root with
    | some r => l.setPrev r (some e)
    | none => l
  { l with root := some e }

/-- `remove` (IntrusiveList.hpp:227-243); `VirtualMachine::leave`. Following a null `prev` is undefined. -/
def remove (l : L) (e : Nat) : Outcome L := do
  let l ← if some e = l.root then
      match l.next e with
      | some n => pure { (l.setPrev n none) with root := some n }
      | none => pure { l with root := none }
    else
      match l.prev e with
      | none => .ub "node(*nullptr)"
      | some p =>
        let l := l.setNext p (l.next e)
        match l.next e with
        | some n => pure (l.setPrev n (l.prev e))
        | none => pure l
  pure ((l.setPrev e none).setNext e none)

/-- Iterating from `begin()` to `end()` (IntrusiveList.hpp:74-77, 245-247): the elements visited, with
fuel for the loop. -/
def walk (l : L) : Nat → Option Nat → Outcome (List Nat)
  | _, none => .ok []
  | 0, some _ => .fuel
  | n + 1, some e => do
    let r ← walk l n (l.next e)
    pure (e :: r)

/-- Iterating backwards with `operator--` (IntrusiveList.hpp:85-88). -/
def walkBack (l : L) : Nat → Option Nat → Outcome (List Nat)
  | _, none => .ok []
  | 0, some _ => .fuel
  | n + 1, some e => do
    let r ← walkBack l n (l.prev e)
    pure (e :: r)

/-- Entering and leaving contexts. -/
inductive Op where
  | enter (c : Nat)
  | leave (c : Nat)
deriving Repr, DecidableEq

/-- One operation on the VM's context list. -/
def step (l : L) : Op → Outcome L
  | .enter c => .ok (add l c)
  | .leave c => remove l c

/-- A sequence of them. -/
def run (l : L) : List Op → Outcome L
  | [] => .ok l
  | op :: ops => do
    let l ← step l op
    run l ops

end Ab.IL
