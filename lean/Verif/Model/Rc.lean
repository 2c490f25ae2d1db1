import Verif.Basic
/-!
Model of `Ab::Rc` and `Ab::RefCounter` (util/include/Ab/Rc.hpp).

A program owns a growing list of handles and a heap of reference-counted objects.
Simplifications: the objects hold no handles themselves (deleting one deletes nothing else); a raw
pointer handed to a handle comes from a live handle (`h.get()`), or from `new` in `mkrc`; addresses are
never reused, so a stale handle is recognised. The move *constructors* (Rc.hpp:115-118, 130-136) are not
modelled: the first assigns to a member of a `const` object and the second's `U` cannot be deduced, so
neither can be instantiated.
-/
namespace Ab.RC

/-- Live objects with their counter (`int value_`, Rc.hpp:42); `none` = not allocated or deleted. -/
structure Heap where
  objs : Nat → Option Nat
  next : Nat

/-- Update one object. -/
def Heap.set (h : Heap) (a : Nat) (v : Option Nat) : Heap :=
  { h with objs := fun x => if x = a then v else h.objs x }

/-- `incref` (Rc.hpp:50-53, 30-34): the counter is an `int`, its overflow is undefined. -/
def incref (h : Heap) (a : Nat) : Outcome Heap :=
  match h.objs a with
  | none => .ub "incref of a deleted object"
  | some n => if n + 1 < 2^31 then .ok (h.set a (some (n + 1))) else .ub "counter overflow"

/-- `xincref` (Rc.hpp:55-60). -/
def xincref (h : Heap) : Option Nat → Outcome Heap
  | none => .ok h
  | some a => incref h a

/-- `decref` (Rc.hpp:62-71): deletes the object when the counter reaches zero. -/
def decref (h : Heap) (a : Nat) : Outcome Heap :=
  match h.objs a with
  | none => .ub "decref of a deleted object"
  | some 0 => .trap "0 <= value_"
  | some 1 => .ok (h.set a none)
  | some (n + 2) => .ok (h.set a (some (n + 1)))

/-- `xdecref` (Rc.hpp:73-80). -/
def xdecref (h : Heap) : Option Nat → Outcome Heap
  | none => .ok h
  | some a => decref h a

/-- The handles (`T* value_`, Rc.hpp:171), by creation order; `none` once destroyed. -/
structure St where
  heap : Heap
  hs : List (Option (Option Nat))

/-- The initial state. -/
def St.init : St := ⟨⟨fun _ => none, 0⟩, []⟩

/-- Handle operations. -/
inductive Op where
  | null                       -- Rc()                         (98-100)
  | mk                         -- mkrc<T>(...)                 (174-177)
  | copy (i : Nat)             -- Rc(const Rc&)                (110-113)
  | fromPtr (i : Nat)          -- Rc(h_i.get())                (102-108)
  | assign (i j : Nat)         -- h_i = h_j                    (156-161)
  | assignPtr (i j : Nat)      -- h_i = h_j.get()              (149-154)
  | moveAssign (i j : Nat)     -- h_i = std::move(h_j)         (163-168)
  | clear (i : Nat)            -- h_i.clear()                  (142-147)
  | destroy (i : Nat)          -- ~Rc                          (138)
  | use (i : Nat)              -- *h_i                          (PtrLike)
deriving Repr, DecidableEq

/-- The live handle number `i`. -/
def St.get (s : St) (i : Nat) : Outcome (Option Nat) :=
  match s.hs[i]? with
  | some (some v) => .ok v
  | _ => .ub "no such live handle"

/-- One operation. -/
def step (s : St) : Op → Outcome St
  | .null => .ok ⟨s.heap, s.hs ++ [some none]⟩
  | .mk => do
    let a := s.heap.next
    let h : Heap := { (s.heap.set a (some 0)) with next := s.heap.next + 1 }
    let h ← xincref h (some a)
    pure ⟨h, s.hs ++ [some (some a)]⟩
  | .copy i => do
    let v ← s.get i
    let h ← xincref s.heap v
    pure ⟨h, s.hs ++ [some v]⟩
  | .fromPtr i => do
    let v ← s.get i
    let h ← xincref s.heap v
    pure ⟨h, s.hs ++ [some v]⟩
  | .assign i j => do
    let vi ← s.get i
    let _ ← s.get j
    let h ← xdecref s.heap vi
    -- `rhs.value_` is read after the decrement; handle `j` itself is untouched by it
    let vj ← s.get j
    let h ← xincref h vj
    pure ⟨h, s.hs.set i (some vj)⟩
  | .assignPtr i j => do
    let vi ← s.get i
    let vj ← s.get j
    let h ← xdecref s.heap vi
    let h ← xincref h vj
    pure ⟨h, s.hs.set i (some vj)⟩
  | .moveAssign i j => do
    let vi ← s.get i
    let vj ← s.get j
    let h ← xdecref s.heap vi
    -- `value_ = rhs.value_; rhs.value_ = nullptr`, in this order also when `i = j`
    pure ⟨h, (s.hs.set i (some vj)).set j (some none)⟩
  | .clear i => do
    let v ← s.get i
    let h ← xdecref s.heap v
    pure ⟨h, s.hs.set i (some none)⟩
  | .destroy i => do
    let v ← s.get i
    let h ← xdecref s.heap v
    pure ⟨h, s.hs.set i none⟩
  | .use i => do
    let v ← s.get i
    match v with
    | none => .ub "null dereference"
    | some a =>
      match s.heap.objs a with
      | none => .ub "use of a deleted object"
      | some _ => pure s

/-- A whole program. -/
def run (s : St) : List Op → Outcome St
  | [] => .ok s
  | op :: ops => do
    let s ← step s op
    run s ops

end Ab.RC
