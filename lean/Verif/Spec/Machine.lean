import Verif.Basic

/-!
Specification of the instruction set, independent of the model: what a byte sequence means as instructions,
and an abstract machine with a register file of 32-bit values. Used in C12, C13, C17–C27.
-/

namespace Ab.Spec

/-- The instructions the virtual machine documents (implemented ones plus `x64.return`). Registers are natural
numbers, branch offsets are signed and relative to the end of the instruction. -/
inductive Instr where
  | unreachable
  | nop
  | halt
  | ret
  | x32ret (src : Nat)
  | x64ret (src : Nat)
  | goto (off : Int)
  | gotoIf (tst : Nat) (off : Int)
  | gotoUnless (tst : Nat) (off : Int)
  | add (dst lhs rhs : Nat)
  | sub (dst lhs rhs : Nat)
deriving Repr, DecidableEq

/-- Length in bytes of an instruction. -/
def Instr.size : Instr → Nat
  | .unreachable => 1
  | .nop => 1
  | .halt => 1
  | .ret => 1
  | .x32ret _ => 2
  | .x64ret _ => 2
  | .goto _ => 2
  | .gotoIf _ _ => 3
  | .gotoUnless _ _ => 3
  | .add _ _ _ => 4
  | .sub _ _ _ => 4

/-- The instruction at the head of a byte sequence, if there is a complete one there.
Opcode numbers as in the documentation of the byte code: 0 unreachable, 1 nop, 4 halt, 12 return, 13 x32.return,
14 x64.return, 22 goto, 23 goto_if, 24 goto_unless, 106 i32.add, 107 i32.sub. -/
def decode : List Byte → Option Instr
  | [] => none
  | op :: rest =>
    match op.toNat, rest with
    | 0, _ => some .unreachable
    | 1, _ => some .nop
    | 4, _ => some .halt
    | 12, _ => some .ret
    | 13, r :: _ => some (.x32ret r.toNat)
    | 14, r :: _ => some (.x64ret r.toNat)
    | 22, o :: _ => some (.goto o.toInt)
    | 23, t :: o :: _ => some (.gotoIf t.toNat o.toInt)
    | 24, t :: o :: _ => some (.gotoUnless t.toNat o.toInt)
    | 106, d :: l :: r :: _ => some (.add d.toNat l.toNat r.toNat)
    | 107, d :: l :: r :: _ => some (.sub d.toNat l.toNat r.toNat)
    | _, _ => none

/-- A byte sequence is the encoding of exactly this list of instructions. -/
inductive DecodesTo : List Byte → List Instr → Prop where
  | nil : DecodesTo [] []
  | cons {bs i is} : decode bs = some i → i.size ≤ bs.length → DecodesTo (bs.drop i.size) is →
      DecodesTo bs (i :: is)

/-- A decoding is unique. -/
theorem DecodesTo.unique {bs is js} (h1 : DecodesTo bs is) (h2 : DecodesTo bs js) : is = js := by
  induction h1 generalizing js with
  | nil => cases h2 with
    | nil => rfl
    | cons h _ _ => simp [decode] at h
  | cons h _ _ ih => cases h2 with
    | nil => simp [decode] at h
    | cons h' _ hr =>
      rw [h] at h'; cases h'
      rw [ih hr]

/-! ## Abstract register machine -/

/-- The abstract machine's register file. -/
abbrev Regs := Nat → U32

def Regs.set (r : Regs) (i : Nat) (v : U32) : Regs := fun j => if j = i then v else r j

/-- Where the abstract machine stands. -/
inductive AState where
  /-- about to execute the instruction at byte offset `pc` of the body -/
  | running (pc : Nat) (regs : Regs)
  /-- stopped by `halt` at `pc` -/
  | halted (pc : Nat) (regs : Regs)
  /-- stopped by `unreachable` at `pc` -/
  | unreachable (pc : Nat) (regs : Regs)
  /-- stopped by `return` (no value) or `x32.return src` at `pc` -/
  | returned (pc : Nat) (src : Option Nat) (regs : Regs)
  /-- an integer addition or subtraction overflowed -/
  | overflow
  /-- the program is not well formed here: no instruction, a register outside the frame, or a jump
  outside the body -/
  | stuck

/-- Is the exact (integer) value representable as a 32-bit signed number? -/
def inI32 (v : Int) : Prop := -2 ^ 31 ≤ v ∧ v < 2 ^ 31

instance (v : Int) : Decidable (inI32 v) := inferInstanceAs (Decidable (_ ∧ _))

/-- Continue at an absolute position, which must lie in the body. -/
def jump (body : List Byte) (target : Int) (regs : Regs) : AState :=
  if 0 ≤ target ∧ target < body.length then .running target.toNat regs else .stuck

/-- One step of the abstract machine on a body, with `n` registers. -/
def astep (body : List Byte) (n : Nat) : AState → AState
  | .running pc regs =>
    match decode (body.drop pc) with
    | none => .stuck
    | some i =>
      match i with
      | .unreachable => .unreachable pc regs
      | .nop => jump body (pc + 1) regs
      | .halt => .halted pc regs
      | .ret => .returned pc none regs
      | .x32ret src => if src < n then .returned pc (some src) regs else .stuck
      | .x64ret _ => .stuck
      | .goto off => jump body (pc + 2 + off) regs
      | .gotoIf t off =>
        if t < n then jump body (pc + 3 + (if regs t ≠ 0 then off else 0)) regs else .stuck
      | .gotoUnless t off =>
        if t < n then jump body (pc + 3 + (if regs t = 0 then off else 0)) regs else .stuck
      | .add d l r =>
        if d < n ∧ l < n ∧ r < n then
          if inI32 ((regs l).toInt + (regs r).toInt) then
            jump body (pc + 4) (regs.set d (BitVec.ofInt 32 ((regs l).toInt + (regs r).toInt)))
          else .overflow
        else .stuck
      | .sub d l r =>
        if d < n ∧ l < n ∧ r < n then
          if inI32 ((regs l).toInt - (regs r).toInt) then
            jump body (pc + 4) (regs.set d (BitVec.ofInt 32 ((regs l).toInt - (regs r).toInt)))
          else .overflow
        else .stuck
  | s => s

/-- `k` steps of the abstract machine. -/
def arun (body : List Byte) (n : Nat) : Nat → AState → AState
  | 0, s => s
  | k + 1, s => arun body n k (astep body n s)

end Ab.Spec
