import Verif.Model.Interp
import Verif.Spec.WellFormed

/-!
How the interpreter's memory represents the abstract machine's register file, and what it means for the
interpreter loop to do what the abstract machine does. These definitions appear in the statements of C17–C27.
-/

namespace Ab
open Spec

/-- The 32-bit value of register `i` of the frame whose register area starts at `sp`. -/
def regView (mem : Mem) (sp i : Nat) : U32 := BitVec.ofNat 32 (readLE mem (sp + 4 * i) 4)

/-- The body bytes are part of the module bytes, at address `addr`. -/
def BodyAt (e : Env) (addr : Nat) (body : List Byte) : Prop :=
  ∃ pre post, e.code = pre ++ body ++ post ∧ addr = e.codeLo + pre.length

/-- The frame of `func` with register area at `sp` (and the first word above it) is inside the stack. -/
structure FrameOk (e : Env) (func : FuncInst) (sp : Nat) : Prop where
  lo : e.stackLo ≤ sp
  hi : sp + 4 * func.nregs.toNat + 4 ≤ e.stackHi

/-- The two memories agree outside the register area. -/
def SameOutside (mem mem' : Mem) (sp n : Nat) : Prop :=
  ∀ x, x < sp ∨ sp + 4 * n ≤ x → mem' x = mem x

/-- The registers of the frame hold the abstract register file. -/
def RegsMatch (mem : Mem) (sp n : Nat) (regs : Regs) : Prop := ∀ i, i < n → regView mem sp i = regs i

/-- The interpreter loop, started at `ip` with memory `mem`, does what the abstract machine's state after `k` steps
says. -/
def RunOk (e : Env) (func : FuncInst) (sp addr ip : Nat) (mem : Mem) (k : Nat) : AState → Prop
  | .running pc' regs' => ∃ mem', (∀ fuel, run e func sp (k + fuel) ip mem = run e func sp fuel (addr + pc') mem') ∧
      RegsMatch mem' sp func.nregs.toNat regs' ∧ SameOutside mem mem' sp func.nregs.toNat
  | .halted pc' regs' => ∃ mem', (∀ fuel, k ≤ fuel → run e func sp fuel ip mem = .ok ⟨0, addr + pc', mem', false⟩) ∧
      RegsMatch mem' sp func.nregs.toNat regs' ∧ SameOutside mem mem' sp func.nregs.toNat
  | .unreachable pc' regs' =>
      ∃ mem', (∀ fuel, k ≤ fuel → run e func sp fuel ip mem = .ok ⟨0, addr + pc', mem', true⟩) ∧
      RegsMatch mem' sp func.nregs.toNat regs' ∧ SameOutside mem mem' sp func.nregs.toNat
  | .returned pc' src regs' =>
      ∃ mem', (mem (sp + 4 * func.nregs.toNat) = 0#8 → ∀ fuel, k ≤ fuel → run e func sp fuel ip mem =
        .ok ⟨match src with | none => 0 | some i => sp + 4 * i, addr + pc', mem', false⟩) ∧
      (mem (sp + 4 * func.nregs.toNat) ≠ 0#8 → ∀ fuel, k ≤ fuel → (run e func sp fuel ip mem).isTrap = true) ∧
      (∀ i, src = some i → i < func.nregs.toNat) ∧
      RegsMatch mem' sp func.nregs.toNat regs' ∧ SameOutside mem mem' sp func.nregs.toNat
  | .overflow => ∀ fuel, k ≤ fuel → (run e func sp fuel ip mem).isUb = true
  | .stuck => True

/-- `k` executed instructions of the interpreter loop from instruction pointer and memory; an instruction that ends the
loop leaves both as they are. -/
def iterSteps (e : Env) (func : FuncInst) (sp : Nat) : Nat → Nat × Mem → Outcome (Nat × Mem)
  | 0, s => .ok s
  | k + 1, s => do
    let r ← step e func sp s.1 s.2
    match r with
    | .next ip mem => iterSteps e func sp k (ip, mem)
    | .exit _ _ => .ok s

end Ab
