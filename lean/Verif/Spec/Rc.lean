import Verif.Model.Rc
/-! What shared ownership means, counted on the handles alone. -/
namespace Ab.Spec

open RC (Op)

/-- How many live handles refer to object `a`. -/
def refs (s : RC.St) (a : Nat) : Nat := s.hs.count (some (some a))

/-- The program only names live handles, dereferences only non-null ones, creates fewer than 2^31 - 1
handles, and does not assign to the only handle of an object a pointer to that same object
(copy assignment and assignment from a raw pointer mishandle that). -/
def RcCareful (s : RC.St) (op : Op) : Prop :=
  let live (i : Nat) : Prop := ∃ v, s.hs[i]? = some (some v)
  let notOnly (i j : Nat) : Prop :=
    ∀ a, s.hs[i]? = some (some (some a)) → s.hs[j]? = some (some (some a)) → refs s a ≠ 1
  s.hs.length < 2^31 - 1 ∧
  match op with
  | .null | .mk => True
  | .copy i | .fromPtr i | .clear i | .destroy i => live i
  | .assign i j | .assignPtr i j => live i ∧ live j ∧ notOnly i j
  | .moveAssign i j => live i ∧ live j
  | .use i => ∃ a, s.hs[i]? = some (some (some a))

/-- `P` holds before every operation the program gets to execute. -/
def RcAlways (P : RC.St → Op → Prop) : RC.St → List Op → Prop
  | _, [] => True
  | s, op :: ops => P s op ∧ ∀ s', RC.step s op = .ok s' → RcAlways P s' ops

/-- Where each handle should point after an operation, by plain aliasing semantics. -/
def handlesAfter (s : RC.St) (op : Op) : List (Option (Option Nat)) :=
  let at' (i : Nat) : Option (Option Nat) := (s.hs[i]?).getD none
  match op with
  | .null => s.hs ++ [some none]
  | .mk => s.hs ++ [some (some s.heap.next)]
  | .copy i | .fromPtr i => s.hs ++ [at' i]
  | .assign i j | .assignPtr i j => s.hs.set i (at' j)
  | .moveAssign i j => (s.hs.set i (at' j)).set j (some none)
  | .clear i => s.hs.set i (some none)
  | .destroy i => s.hs.set i none
  | .use _ => s.hs

end Ab.Spec
