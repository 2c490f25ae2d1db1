import Verif.Spec.WellFormed

/-!
Specification for C95 and C96: code without backward branches, and code that writes every register before reading it.
-/

namespace Ab.Spec

/-- No branch goes back: every branch goes to the instruction after the branch or further on. -/
def ForwardOnly (is : List Instr) : Prop := ∀ i ∈ is, ∀ off, i.branch = some off → 0 ≤ off

instance (is : List Instr) : Decidable (ForwardOnly is) :=
  decidable_of_iff (∀ i ∈ is, (match i.branch with | some off => decide (0 ≤ off) | none => true) = true) <| by
    unfold ForwardOnly
    constructor
    · intro h i hi off ho
      have := h i hi
      rw [ho] at this
      simpa using this
    · intro h i hi
      cases ho : i.branch with
      | none => rfl
      | some off => simpa using h i hi off ho

/-- Registers whose content decides what an instruction does. `k` registers make up the result of the function: returning
from register `s` hands all of `s`, …, `s + k - 1` to the caller. -/
def Instr.reads (k : Nat) : Instr → List Nat
  | .x32ret s => List.range' s k
  | .gotoIf t _ => [t]
  | .gotoUnless t _ => [t]
  | .add _ l r => [l, r]
  | .sub _ l r => [l, r]
  | _ => []

/-- Registers an instruction writes. -/
def Instr.writes : Instr → List Nat
  | .add d _ _ => [d]
  | .sub d _ _ => [d]
  | _ => []

/-- `Path is n pc w`: some path through the code leads to the instruction at byte `pc`, and `w` are the registers that hold an
argument (the first `n`) or that were written on the way. -/
inductive Path (is : List Instr) (n : Nat) : Nat → List Nat → Prop where
  | start : Path is n 0 (List.range n)
  | next {pre i post w} : Path is n (bytesOf pre) w → is = pre ++ i :: post → i.noFallThrough = false →
      Path is n (bytesOf pre + i.size) (i.writes ++ w)
  | branch {pre i post w off} {pc : Nat} : Path is n (bytesOf pre) w → is = pre ++ i :: post → i.branch = some off →
      (pc : Int) = bytesOf pre + i.size + off → Path is n pc w

/-- On every path, a register is read only after it was written (or when it holds an argument). -/
def WrittenBeforeRead (is : List Instr) (n k : Nat) : Prop :=
  ∀ pre i post w, is = pre ++ i :: post → Path is n (bytesOf pre) w → ∀ r ∈ i.reads k, r ∈ w

end Ab.Spec
