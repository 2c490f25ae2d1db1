import Verif.Basic
/-!
Model of `Ab::Rc` (util/include/Ab/Rc.hpp) where the counted objects themselves have members of type `Rc`: lists, trees, graphs.

A program has a fixed number of variables of type `Rc<T>`, all null at first; a variable whose life ends is cleared (Rc.hpp:138). `T` has
`Rc<T>` members, the fields.
Simplifications: addresses are not used again, so a deleted object is recognised; the fields of a deleted object are cleared one after
the other, each with all that this deletes, before the next; the depth of this recursion is not limited; `new` does not fail.
The move constructors (Rc.hpp:115-118, 130-136) cannot be instantiated and are left out.
-/
namespace Ab.RcG

/-- `T* value_` (Rc.hpp:171). -/
abbrev Ptr := Option Nat

/-- An object: its counter (Rc.hpp:42, 88) and its members of type `Rc`. -/
structure Obj where
  count  : Nat
  fields : List Ptr
deriving Repr, DecidableEq

/-- The objects made so far; `none` has been deleted. -/
abbrev Heap := List (Option Obj)

def deleted : String := "use of a deleted object"
def overflow : String := "counter overflow"
def nullDeref : String := "null dereference"
def noVar : String := "no such variable"
def noField : String := "no such field"

/-- `xincref` (Rc.hpp:55-60, 50-53, 30-34); the counter is an `int`. -/
def retain (h : Heap) : Ptr → Outcome Heap
  | none => .ok h
  | some a =>
    match h[a]? with
    | some (some c) => if c.count + 1 < 2^31 then .ok (h.set a (some { c with count := c.count + 1 })) else .ub overflow
    | _ => .ub deleted

/-- `xdecref` (Rc.hpp:73-80, 62-71, 36-40) of the given pointers, one after the other; the object whose counter reaches zero is deleted, and
its fields are cleared (Rc.hpp:138, 142-147). -/
def release : Nat → Heap → List Ptr → Outcome Heap
  | _, h, [] => .ok h
  | 0, _, _ :: _ => .fuel
  | n + 1, h, none :: w => release n h w
  | n + 1, h, some a :: w =>
    match h[a]? with
    | some (some c) =>
      if c.count = 1 then release n (h.set a none) (c.fields ++ w)
      else if c.count = 0 then .trap "0 <= value_"
      else release n (h.set a (some { c with count := c.count - 1 })) w
    | _ => .ub deleted

/-- All fields of all objects. -/
def Heap.refs (h : Heap) : List Ptr := h.flatMap fun | some c => c.fields | none => []

/-- `xdecref` of one pointer, with enough steps (proved). -/
def drop (h : Heap) (p : Ptr) : Outcome Heap := release (h.refs.length + 1) h [p]

structure St where
  heap : Heap
  vars : List Ptr
deriving Repr, DecidableEq

/-- `n` variables, no objects. -/
def St.init (n : Nat) : St := ⟨[], List.replicate n none⟩

/-- An expression for an `Rc`: a variable, or a member of the object a variable refers to (`x->f`). -/
inductive Place
  | var (x : Nat)
  | fld (x k : Nat)
deriving Repr, DecidableEq

/-- The `Rc` it stands for. -/
inductive Loc
  | var (x : Nat)
  | cell (a k : Nat)
deriving Repr, DecidableEq

/-- Evaluating the expression (PtrLike.hpp). -/
def St.resolve (s : St) : Place → Outcome Loc
  | .var x => if x < s.vars.length then .ok (.var x) else .ub noVar
  | .fld x k =>
    match s.vars[x]? with
    | none => .ub noVar
    | some none => .ub nullDeref
    | some (some a) =>
      match s.heap[a]? with
      | some (some c) => if k < c.fields.length then .ok (.cell a k) else .ub noField
      | _ => .ub deleted

/-- Reading `value_`. -/
def St.read (s : St) : Loc → Outcome Ptr
  | .var x =>
    match s.vars[x]? with
    | some v => .ok v
    | none => .ub noVar
  | .cell a k =>
    match s.heap[a]? with
    | some (some c) =>
      match c.fields[k]? with
      | some v => .ok v
      | none => .ub noField
    | _ => .ub deleted

/-- Writing `value_`. -/
def St.write (s : St) (v : Ptr) : Loc → Outcome St
  | .var x => if x < s.vars.length then .ok { s with vars := s.vars.set x v } else .ub noVar
  | .cell a k =>
    match s.heap[a]? with
    | some (some c) => .ok { s with heap := s.heap.set a (some { c with fields := c.fields.set k v }) }
    | _ => .ub deleted

/-- Copying several. -/
def retainAll (h : Heap) : List Ptr → Outcome Heap
  | [] => .ok h
  | p :: ps => do
    let h ← retain h p
    retainAll h ps

/-- The values of variables. -/
def St.readVars (s : St) : List Nat → Outcome (List Ptr)
  | [] => .ok []
  | y :: ys => do
    let v ← s.read (.var y)
    let vs ← s.readVars ys
    .ok (v :: vs)

inductive Op
  /-- `x = mkrc<T>(y1, y2, …);` (174-177, 163-168): the fields are copies of the variables. -/
  | make (x : Nat) (ys : List Nat)
  /-- `t = s;` (156-161) -/
  | assign (t s : Place)
  /-- `t = s.get();` (149-154) -/
  | assignPtr (t s : Place)
  /-- `t = std::move(s);` (163-168) -/
  | moveAssign (t s : Place)
  /-- `t.clear();` (142-147), or the end of the life of a variable. -/
  | clear (t : Place)
  /-- `*t` -/
  | use (t : Place)
deriving Repr, DecidableEq

/-- One operation. -/
def step (s : St) : Op → Outcome St
  | .make x ys => do
    let vs ← s.readVars ys
    let h ← retainAll s.heap vs
    let s' : St := ⟨h ++ [some ⟨1, vs⟩], s.vars⟩                  -- `new T`, and `Rc(U*)`, 102-108
    let old ← s'.read (.var x)
    let h ← drop s'.heap old
    St.write { s' with heap := h } (some s.heap.length) (.var x)
  | .assign t r => do
    let lt ← s.resolve t
    let lr ← s.resolve r
    let old ← s.read lt
    let h ← drop s.heap old                                       -- 157
    let s := { s with heap := h }
    let v ← s.read lr
    let s ← s.write v lt                                          -- 158
    let h ← retain s.heap v                                       -- 159
    .ok { s with heap := h }
  | .assignPtr t r => do
    let lt ← s.resolve t
    let lr ← s.resolve r
    let v ← s.read lr
    let old ← s.read lt
    let h ← drop s.heap old                                       -- 150
    let s := { s with heap := h }
    let s ← s.write v lt                                          -- 151
    let h ← retain s.heap v                                       -- 152
    .ok { s with heap := h }
  | .moveAssign t r => do
    let lt ← s.resolve t
    let lr ← s.resolve r
    let old ← s.read lt
    let h ← drop s.heap old                                       -- 164
    let s := { s with heap := h }
    let v ← s.read lr
    let s ← s.write v lt                                          -- 165
    s.write none lr                                               -- 166
  | .clear t => do
    let lt ← s.resolve t
    let old ← s.read lt
    let h ← drop s.heap old                                       -- 144
    St.write { s with heap := h } none lt                         -- 145
  | .use t => do
    let lt ← s.resolve t
    let v ← s.read lt
    match v with
    | none => .ub nullDeref
    | some a =>
      match s.heap[a]? with
      | some (some _) => .ok s
      | _ => .ub deleted

/-- A program. -/
def run (s : St) : List Op → Outcome St
  | [] => .ok s
  | o :: os => do
    let s ← step s o
    run s os

end Ab.RcG
