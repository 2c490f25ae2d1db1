import Verif.Spec.DisasmCode
/-! What the disassembler prints for functions nested to any depth: the level of a line goes no further than ten, but every `end` takes
one back, so that after deep nesting all lines stand too far to the left, those of later functions too; of a branch table the first
target alone is shown. -/
namespace Ab.Spec.Disasm
open Ab.Wasm Ab.Spec.Wasm

/-- One level more, at most ten. -/
def deeper (k : Nat) : Nat := min (k + 1) 10

section
variable (num : Int → List Char)

/-- The immediates that are shown: of a branch table the default and the first target. -/
def shownOperands : Imm → List Tree
  | .table l d => word "default" :: number num d.toNat :: (l.take 1).map fun t => number num t.toNat
  | i => operands num i

/-- An instruction as it is shown. -/
def shownInstruction (e : Expr) : List Char := renderAll (word ((instructionName e.op.toNat).getD "") :: shownOperands num e.imm)
end

/-- The level of the line of an instruction, when the level is `k` and `d` blocks are open. -/
def lineLevel (k d : Nat) (e : Expr) : Nat :=
  if e.op.toNat = 0x05 ∨ (e.op.toNat = 0x0b ∧ 0 < d) then k - 1 else k

/-- The level after it. -/
def levelAfter (k d : Nat) (e : Expr) : Nat :=
  if (0x02 ≤ e.op.toNat ∧ e.op.toNat ≤ 0x04) ∨ e.op.toNat = 0x05 then deeper (lineLevel k d e) else lineLevel k d e

/-- The lines of instructions, from level `k` on and inside `d` blocks. -/
def shownLines (num : Int → List Char) : Nat → Nat → List Expr → List Char
  | _, _, [] => []
  | k, d, e :: l => lineAt (lineLevel k d e) (shownInstruction num e) ++ shownLines num (levelAfter k d e) (openNext d e) l

/-- The level after them. -/
def levelAtEnd : Nat → Nat → List Expr → Nat
  | k, _, [] => k
  | k, d, e :: l => levelAtEnd (levelAfter k d e) (openNext d e) l

/-- A function that begins at level `k`. -/
def shownFunc (num : Int → List Char) (k : Nat) (f : Func) : List Char :=
  lineAt k ("(func ".toList ++ (Tree.list [word "typezz", .atom (inDecimal f.type.toNat)]).render) ++
    lineAt (k + 1) (localsTree f.locals).render ++ shownLines num (k + 1) 0 f.instrs ++ [')']

/-- The level after a function that began at level `k`. -/
def levelOut (k : Nat) (f : Func) : Nat := levelAtEnd (k + 1) 0 f.instrs - 1

/-- Functions, one after the other. -/
def shownFuncs (num : Int → List Char) : Nat → List Func → List Char
  | _, [] => []
  | k, f :: fs => shownFunc num k f ++ shownFuncs num (levelOut k f) fs

/-- The functions the reader can read: the instructions are those of version 1 without those the reader lacks, properly nested to any
depth; a block has a known type. -/
structure Readable (f : Func) : Prop where
  encoded : EncSeq (EncInstr NotLongNegative) f.code f.instrs
  some    : f.instrs ≠ []
  known   : ∀ e ∈ f.instrs, ¬ Missing e.op.toNat
  nested  : WellNested 0 f.instrs
  types   : ∀ e ∈ f.instrs, e.op.toNat = 0x02 → ∀ t, e.imm = .typeCode t →
    t.toNat ∈ [0x7f, 0x7e, 0x7d, 0x7c, 0x70, 0x60, 0x40]
  size    : f.code.length < 2 ^ 32

end Ab.Spec.Disasm
