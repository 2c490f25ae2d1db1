import Verif.Spec.Machine

/-!
Specification: when a function body is well formed. Independent of the model. Used in C17, C18, C20, C27.
-/

namespace Ab.Spec

/-- Registers an instruction names. -/
def Instr.regs : Instr → List Nat
  | .x32ret s => [s]
  | .x64ret s => [s]
  | .gotoIf t _ => [t]
  | .gotoUnless t _ => [t]
  | .add d l r => [d, l, r]
  | .sub d l r => [d, l, r]
  | _ => []

/-- The branch offset of an instruction, relative to its end. -/
def Instr.branch : Instr → Option Int
  | .goto o => some o
  | .gotoIf _ o => some o
  | .gotoUnless _ o => some o
  | _ => none

/-- The instruction never continues with the next one. -/
def Instr.noFallThrough : Instr → Bool
  | .unreachable | .halt | .ret | .x32ret _ | .goto _ => true
  | _ => false

/-- Bytes taken by a list of instructions. -/
def bytesOf (is : List Instr) : Nat := (is.map Instr.size).sum

/-- A body is well formed for `n` registers: it is a sequence of instructions, all registers are below `n`, every branch
goes to the start of an instruction of the body, and execution cannot run off the end. -/
structure WellFormedBody (body : List Byte) (n : Nat) (is : List Instr) : Prop where
  decodes : DecodesTo body is
  nonempty : is ≠ []
  regs : ∀ i ∈ is, ∀ r ∈ i.regs, r < n
  supported : ∀ i ∈ is, ∀ s, i ≠ .x64ret s
  last : ∀ i, is.getLast? = some i → i.noFallThrough = true
  targets : ∀ pre i post, is = pre ++ i :: post → ∀ off, i.branch = some off →
    ∃ pre' j post', is = pre' ++ j :: post' ∧ (bytesOf pre' : Int) = bytesOf pre + i.size + off

end Ab.Spec
