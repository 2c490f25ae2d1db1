import Verif.Spec.Code
import Verif.Props.Disasm2
/-! C92: printing code. -/
namespace Ab.Wasm
open Sexpr Spec Spec.Wasm Spec.Disasm

/-- C92, names: the name shown for each of the 256 possible operator codes. -/
theorem C92_names (op : Byte) : opName op = operatorName op.toNat := by
  revert op; decide +kernel

theorem putExpr_code (f : Formatter) (e : Expr) : putExpr f e = putTrees f (codeTrees asCharacter e) := by
  unfold putExpr codeTrees
  rw [C92_names, str_eq]
  cases e.imm with
  | none => simp [putImm, putTrees]
  | typeCode t => simp [putImm, putTrees, type_eq]
  | index n => simp [putImm, putTrees, num_eq]
  | signature n r => simp [putImm, putTrees, num_eq]
  | int n => simp [putImm, putTrees, int_eq]
  | u32 n => simp [putImm, putTrees, num_eq]
  | u64 n => simp [putImm, putTrees, num_eq]
  | table l d => cases l <;> simp [putImm, putTrees, num_eq, str_eq]
  | memory a b => simp [putImm, putTrees, num_eq]

theorem heights_code (e : Expr) : heights (codeTrees asCharacter e) = 0 := by
  unfold codeTrees
  cases e.imm with
  | table l d => cases l <;> simp [heights]
  | _ => simp [heights]

/-- An instruction on a new line. -/
theorem put_instr (b : List Char) (d : Nat) (hd : d ≤ 10) (e : Expr) :
    putExpr (Formatter.freshen ⟨b, d, false, true⟩) e = ⟨b ++ lineAt d (codeLine asCharacter e), d, false, true⟩ := by
  rw [putExpr_code]
  have e1 : Formatter.freshen ⟨b, d, false, true⟩ = ⟨b ++ ['\n'], d, true, false⟩ := rfl
  rw [e1]
  have hne : ∃ w l, codeTrees asCharacter e = word w :: l := ⟨_, _, rfl⟩
  have hh := heights_code e
  unfold codeLine
  obtain ⟨w, l, hl⟩ := hne
  rw [hl] at hh ⊢
  rw [putTrees, word, putTree, text_eq, renderAll, Tree.render]
  rw [heights] at hh
  rw [putTrees_eq _ _ _ _ (by show d + heights l ≤ 10; omega)]
  simp [lead, spaces_eq, lineAt]

theorem foldlM_append (f : Body → Expr → Outcome Body) (s : Body) (a b : List Expr) :
    (a ++ b).foldlM f s = (a.foldlM f s >>= fun s => b.foldlM f s) := by
  induction a generalizing s with
  | nil => rfl
  | cons x a ih =>
    rw [List.cons_append, List.foldlM_cons, List.foldlM_cons, Outcome.bind_assoc']
    congr 1
    funext s
    exact ih s

theorem print_simple (e : Expr) (h : Simple e) (b : List Char) (d k : Nat) (hd : d ≤ 10) :
    printExpr ⟨⟨b, d, false, true⟩, k⟩ e = .ok ⟨⟨b ++ lineAt d (codeLine asCharacter e), d, false, true⟩, k⟩ := by
  obtain ⟨h2, h3, h4, h5, hb⟩ := h
  unfold printExpr
  rw [if_neg (by rw [not_or]; exact ⟨h4, h3⟩), if_neg h2, if_neg hb, if_neg h5, put_instr b d hd]

theorem typeName_known (t : Byte) : typeName t = "UNKNOWN_TYPECODE" ↔ t ∉ [0x7f#8, 0x7e#8, 0x7d#8, 0x7c#8, 0x70#8, 0x60#8, 0x40#8] := by
  revert t; decide +kernel

theorem print_open (e : Expr) (h : Opens e) (b : List Char) (d k : Nat) (hd : d < 10) :
    printExpr ⟨⟨b, d, false, true⟩, k⟩ e = .ok ⟨⟨b ++ lineAt d (codeLine asCharacter e), d + 1, false, true⟩, k + 1⟩ := by
  have fin : Outcome.ok (⟨Formatter.indent (putExpr (Formatter.freshen ⟨b, d, false, true⟩) e), k + 1⟩ : Body) =
      .ok ⟨⟨b ++ lineAt d (codeLine asCharacter e), d + 1, false, true⟩, k + 1⟩ := by
    rw [put_instr b d (by omega)]
    simp [Formatter.indent, inc, hd]
  unfold printExpr
  rcases h with ⟨h, t, ht, hm⟩ | h | h
  · rw [if_neg (by rw [h]; decide), if_pos h, ht]
    simp only
    rw [if_neg (fun hh => (typeName_known t).1 hh hm)]
    exact fin
  · rw [if_pos (Or.inr h)]; exact fin
  · rw [if_pos (Or.inl h)]; exact fin

theorem print_end (b : List Char) (d k : Nat) (hd : d < 10) :
    printExpr ⟨⟨b, d + 1, false, true⟩, k + 1⟩ END = .ok ⟨⟨b ++ lineAt d "end".toList, d, false, true⟩, k⟩ := by
  unfold printExpr
  rw [if_neg (by decide), if_neg (by decide), if_pos (by decide), if_pos (by simp)]
  have : Formatter.dedent ⟨b, d + 1, false, true⟩ = ⟨b, d, false, true⟩ := by simp [Formatter.dedent, dec]
  simp only [this]
  rw [put_instr b d (by omega)]
  rfl

theorem print_last (b : List Char) (d : Nat) (hd : d ≤ 10) :
    printExpr ⟨⟨b, d, false, true⟩, 0⟩ END = .ok ⟨⟨b ++ lineAt d "end".toList, d, false, true⟩, 0⟩ := by
  unfold printExpr
  rw [if_neg (by decide), if_neg (by decide), if_pos (by decide), if_neg (by simp), put_instr b d hd]
  rfl

theorem print_else (b : List Char) (d k : Nat) (hd : d < 10) :
    printExpr ⟨⟨b, d + 1, false, true⟩, k⟩ ELSE = .ok ⟨⟨b ++ lineAt d "else".toList, d + 1, false, true⟩, k⟩ := by
  unfold printExpr
  rw [if_neg (by decide), if_neg (by decide), if_neg (by decide), if_pos (by decide)]
  have : Formatter.dedent ⟨b, d + 1, false, true⟩ = ⟨b, d, false, true⟩ := by simp [Formatter.dedent, dec]
  simp only [this]
  rw [put_instr b d (by omega)]
  simp only [Formatter.indent, inc, if_pos hd]
  rfl

mutual
theorem print_stmt (s : Stmt) (hs : s.Proper) (b : List Char) (d k : Nat) (hd : d + s.height ≤ 10) :
    s.code.foldlM printExpr ⟨⟨b, d, false, true⟩, k⟩ = .ok ⟨⟨b ++ s.layout asCharacter d, d, false, true⟩, k⟩ := by
  cases s with
  | simple e =>
    rw [Stmt.code, Stmt.layout, List.foldlM_cons, print_simple e hs b d k (by omega)]
    rfl
  | block e l =>
    rw [Stmt.height] at hd
    rw [Stmt.Proper] at hs
    rw [Stmt.code, Stmt.layout, List.cons_append, List.foldlM_cons, print_open e hs.1 b d k (by omega), Outcome.ok_bind, foldlM_append,
      print_all l hs.2 _ (d + 1) (k + 1) (by omega), Outcome.ok_bind, List.foldlM_cons, print_end _ d k (by omega)]
    simp only [List.append_assoc]
    rfl
  | branch e y n =>
    rw [Stmt.height] at hd
    rw [Stmt.Proper] at hs
    rw [Stmt.code, Stmt.layout, List.append_assoc, List.cons_append, List.foldlM_cons, print_open e (Or.inr (Or.inr hs.1)) b d k (by omega), Outcome.ok_bind,
      foldlM_append, print_all y hs.2.1 _ (d + 1) (k + 1) (by omega), Outcome.ok_bind, List.cons_append, List.foldlM_cons,
      print_else _ d (k + 1) (by omega), Outcome.ok_bind, foldlM_append, print_all n hs.2.2 _ (d + 1) (k + 1) (by omega), Outcome.ok_bind,
      List.foldlM_cons, print_end _ d k (by omega)]
    simp only [List.append_assoc]
    rfl
theorem print_all (l : List Stmt) (hl : ProperAll l) (b : List Char) (d k : Nat) (hd : d + heightAll l ≤ 10) :
    (codeAll l).foldlM printExpr ⟨⟨b, d, false, true⟩, k⟩ = .ok ⟨⟨b ++ layoutAll asCharacter d l, d, false, true⟩, k⟩ := by
  cases l with
  | nil => rw [codeAll, layoutAll, List.append_nil]; rfl
  | cons s l =>
    rw [heightAll] at hd
    rw [ProperAll] at hl
    rw [codeAll, foldlM_append, print_stmt s hl.1 b d k (by omega), Outcome.ok_bind, print_all l hl.2 _ d k (by omega), layoutAll]
    simp only [List.append_assoc]
end

/-- C92: reading and printing the encoding of structured code, begun after something else on a line at level `d`, prints it one
instruction a line, the inside of each block indented once more, and the `end` of the function at level `d`. The blocks may be nested
`10 - d` deep (see `C92_negation`), and the operators may not be among those the program does not know (C61). -/
theorem C92_printed_partial (mem : Nat) (bs : List Byte) (l : List Stmt) (h : EncSeq (EncInstr NotLongNegative) bs (codeAll l ++ [END]))
    (hm : ∀ e ∈ codeAll l, ¬ Missing e.op.toNat) (hl : ProperAll l) (hmem : 4 * bs.length ≤ mem) (b : List Char) (d : Nat)
    (hd : d + heightAll l ≤ 10) (suf : List Byte) (off : Nat) :
    readExprs mem printExpr off bs.length ((bs ++ suf).length + 1) ⟨⟨b, d, false, true⟩, 0⟩ (good (bs ++ suf) off) =
      .ok (⟨⟨b ++ (layoutAll asCharacter d l ++ lineAt d "end".toList), d, false, true⟩, 0⟩, good suf (off + bs.length)) := by
  rw [C61_instructions_partial mem printExpr bs _ h (by simp) (by
    intro e he
    rcases List.mem_append.1 he with he | he
    · exact hm e he
    · rw [List.mem_singleton] at he
      subst he
      simp [Missing, ReservedOp, END]) hmem, foldlM_append, print_all l hl b d 0 hd, Outcome.ok_bind, List.foldlM_cons, print_last _ d (by omega)]
  simp only [List.append_assoc]
  rfl

/-- `n` blocks inside each other. -/
def nested : Nat → Stmt
  | 0 => .simple ⟨0x01#8, .none⟩
  | n + 1 => .block ⟨0x02#8, .typeCode 0x40⟩ [nested n]

theorem nested_proper (n : Nat) : (nested n).Proper := by
  induction n with
  | zero => simp [nested, Stmt.Proper, Simple]
  | succ n ih => exact ⟨Or.inl ⟨rfl, _, rfl, by simp⟩, ih, trivial⟩

/-- C92 fails for code nested more deeply: of eleven blocks the ends are not below their beginnings. -/
theorem C92_negation : ∃ (s : Stmt) (r : Body), s.Proper ∧ s.code.foldlM printExpr ⟨⟨[], 0, false, true⟩, 0⟩ = .ok r ∧
    r.out.buffer ≠ s.layout asCharacter 0 := by
  have h : ((nested 11).code.foldlM printExpr ⟨⟨[], 0, false, true⟩, 0⟩ >>= fun r => Outcome.ok r.out.buffer) ≠
      .ok ((nested 11).layout asCharacter 0) := by decide +kernel
  have h2 : ((nested 11).code.foldlM printExpr ⟨⟨[], 0, false, true⟩, 0⟩).isOk = true := by decide +kernel
  cases hr : (nested 11).code.foldlM printExpr ⟨⟨[], 0, false, true⟩, 0⟩ with
  | ok r =>
    refine ⟨nested 11, r, nested_proper 11, hr, ?_⟩
    intro he
    rw [hr, Outcome.ok_bind, he] at h
    exact h rfl
  | _ => rw [hr] at h2; cases h2

/-- C92, types: a `block` of a type without a name ends the printing. -/
theorem C92_bad_type (s : Body) (t : Byte) :
    printExpr s ⟨0x02#8, .typeCode t⟩ = .throw "Bad typecode" ↔ t ∉ [0x7f#8, 0x7e#8, 0x7d#8, 0x7c#8, 0x70#8, 0x60#8, 0x40#8] := by
  unfold printExpr
  rw [if_neg (by simp), if_pos rfl]
  simp only
  rw [← typeName_known]
  constructor
  · intro h
    split at h
    · assumption
    · cases h
  · intro h; rw [if_pos h]

/-- `if i32; i32_const 5; else; block; nop; end; end`, then `end`. -/
def sample : List Stmt :=
  [.branch ⟨0x04, .typeCode 0x7f⟩ [.simple ⟨0x41, .int 65⟩] [.block ⟨0x02, .typeCode 0x40⟩ [.simple ⟨0x01, .none⟩]], .simple ⟨0x1a, .none⟩]

example : ProperAll sample ∧ 2 + heightAll sample ≤ 10 ∧
    layoutAll asCharacter 2 sample =
      "\n    if i32\n      i32_const A\n    else\n      block empty\n        nop\n      end\n    end\n    drop".toList := by
  refine ⟨?_, by decide, by decide +kernel⟩
  simp [sample, ProperAll, Stmt.Proper, Simple, Opens]

example : EncSeq (EncInstr NotLongNegative) [0x04, 0x7f, 0x41, 0xc1, 0x00, 0x05, 0x02, 0x40, 0x01, 0x0b, 0x0b, 0x1a, 0x0b] (codeAll sample ++ [END]) ∧
    (∀ e ∈ codeAll sample, ¬ Missing e.op.toNat) := by
  constructor
  · refine .cons (bs := [0x04, 0x7f]) (.block (by simp [BlockOp])) ?_
    refine .cons (bs := [0x41, 0xc1, 0x00]) (.i32 (n := 65) ⟨by simp [IsLeb, Continues], by decide, by decide, by decide, by decide⟩) ?_
    refine .cons (bs := [0x05]) (.plain (by simp [PlainOp, Opcode, BlockOp, IndexOp, MemoryOp, ReservedOp])) ?_
    refine .cons (bs := [0x02, 0x40]) (.block (by simp [BlockOp])) ?_
    refine .cons (bs := [0x01]) (.plain (by simp [PlainOp, Opcode, BlockOp, IndexOp, MemoryOp, ReservedOp])) ?_
    refine .cons (bs := [0x0b]) (.plain (by simp [PlainOp, Opcode, BlockOp, IndexOp, MemoryOp, ReservedOp])) ?_
    refine .cons (bs := [0x0b]) (.plain (by simp [PlainOp, Opcode, BlockOp, IndexOp, MemoryOp, ReservedOp])) ?_
    refine .cons (bs := [0x1a]) (.plain (by simp [PlainOp, Opcode, BlockOp, IndexOp, MemoryOp, ReservedOp])) ?_
    refine .cons (bs := [0x0b]) (.plain (by simp [PlainOp, Opcode, BlockOp, IndexOp, MemoryOp, ReservedOp])) .nil
  · simp [sample, codeAll, Stmt.code, Missing, ReservedOp, END, ELSE]

end Ab.Wasm
