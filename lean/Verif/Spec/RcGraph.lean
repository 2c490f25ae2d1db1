import Verif.Model.RcGraph
/-!
What users of counted pointers expect.
-/
namespace Ab.Spec.RcG
open Ab.RcG

/-- How often the object `a` is referred to: by variables and by members of objects that have not been deleted. -/
def uses (s : St) (a : Nat) : Nat :=
  s.vars.count (some a) + (s.heap.map fun | some c => c.fields.count (some a) | none => 0).sum

/-- The objects that exist are those referred to, and each counts its references. -/
def Exact (s : St) : Prop :=
  ∀ a, (∀ c, s.heap[a]? = some (some c) → c.count = uses s a ∧ 0 < uses s a) ∧
    ((∀ c, s.heap[a]? ≠ some (some c)) → uses s a = 0)

/-- Mistakes of the program itself, and more references than a counter can count. -/
def Excused (w : String) : Prop := w = nullDeref ∨ w = noVar ∨ w = noField ∨ w = overflow

/-- How a step or a program may end. -/
def Fine : Outcome St → Prop
  | .ok s => Exact s
  | .ub w => Excused w
  | _ => False

/-- The two sides of an assignment are different `Rc`s, and the right side is not reached through the variable assigned to (as it is
in `p = p->next`). -/
def Apart (s : St) (t r : Place) : Prop :=
  (∀ l, s.resolve t = .ok l → s.resolve r ≠ .ok l) ∧ ∀ x k, ¬ (t = .var x ∧ r = .fld x k)

def CarefulStep (s : St) : Op → Prop
  | .assign t r => Apart s t r
  | .assignPtr t r => Apart s t r
  | .moveAssign t r => Apart s t r
  | _ => True

/-- Every assignment of the program is careful in the state in which it is made. -/
def Careful (s : St) : List Op → Prop
  | [] => True
  | o :: os => CarefulStep s o ∧ ∀ s', step s o = .ok s' → Careful s' os

end Ab.Spec.RcG
