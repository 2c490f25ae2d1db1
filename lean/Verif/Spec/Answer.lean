import Verif.Spec.Call
import Verif.Spec.WellFormed

/-!
Specification for C27 (any code) and C99: the answer of a call, as the register machine and as the instructions read in order say.
-/

namespace Ab.Spec

/-- What the caller sees: values and the error flag, undefined behaviour, or nothing yet. -/
inductive Answer where
  | values (vs : List Nat) (error : Bool)
  | undefined
  | pending
deriving DecidableEq, Repr

/-- A function that ends without a value, after an error or not: fine if no result is declared. -/
def Answer.noValue (rets : List CType) (error : Bool) : Answer := if rets = [] then .values [] error else .undefined

/-- The answer of a function with results `rets` when the machine stands like this; the values are in the registers from the
returned one on. -/
def AState.answer (rets : List CType) : AState → Option Answer
  | .running _ _ => some .pending
  | .halted _ _ => some (.noValue rets false)
  | .unreachable _ _ => some (.noValue rets true)
  | .returned _ none _ => some (.noValue rets false)
  | .returned _ (some i) regs => some (.values (retVals regs i rets) false)
  | .overflow => some .undefined
  | .stuck => none

/-- Registers at the start: the arguments come first; the others hold anything. -/
def StartsWith (regs : Regs) (args : List (CType × Nat)) : Prop :=
  ∀ (j : Nat) (v : U32), (argRegs args)[j]? = some v → regs j = v

/-- Every returned register, and those after it that belong to the result, are registers of the function. -/
def ReturnsFit (is : List Instr) (rets : List CType) (n : Nat) : Prop := ∀ s, .x32ret s ∈ is → s + regTotal rets ≤ n

/-- Instructions without branches, executed in order; `none` if the end is passed (or there is a branch or `x64.return`). -/
def inOrder (rets : List CType) : List Instr → Regs → Option Answer
  | .nop :: is, regs => inOrder rets is regs
  | .add d l r :: is, regs =>
    if inI32 ((regs l).toInt + (regs r).toInt) then
      inOrder rets is (regs.set d (BitVec.ofInt 32 ((regs l).toInt + (regs r).toInt)))
    else some .undefined
  | .sub d l r :: is, regs =>
    if inI32 ((regs l).toInt - (regs r).toInt) then
      inOrder rets is (regs.set d (BitVec.ofInt 32 ((regs l).toInt - (regs r).toInt)))
    else some .undefined
  | .halt :: _, _ => some (.noValue rets false)
  | .ret :: _, _ => some (.noValue rets false)
  | .unreachable :: _, _ => some (.noValue rets true)
  | .x32ret s :: _, regs => some (.values (retVals regs s rets) false)
  | _, _ => none

end Ab.Spec
