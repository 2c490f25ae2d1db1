import Verif.Spec.Vec
/-! Specification for C119: how deep and how large a persistent vector should be. -/
namespace Ab.PVec.Spec
open Ab.PVec

variable {T : Type}

/-- `k` is the least number, other than zero, with `n ≤ 4^k`: the base-4 logarithm, rounded up. -/
def Depth (n k : Nat) : Prop := k ≠ 0 ∧ n ≤ 4 ^ k ∧ ∀ m, m ≠ 0 → n ≤ 4 ^ m → k ≤ m

/-- The number of nodes allocated and not yet freed. -/
def live (h : Heap T) : Nat := sumTo (fun a => match h.cell a with | some _ => 1 | none => 0) h.next

/-- The sum, over the variables below `N` that hold a vector, of `f` of the variable and the number of elements. -/
def total (e : Env T) (f : Nat → Nat → Nat) (N : Nat) : Nat :=
  sumTo (fun k => match e k with | some l => f k l.length | none => 0) N

end Ab.PVec.Spec
