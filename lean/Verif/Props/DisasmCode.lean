import Verif.Spec.DisasmCode
import Verif.Proof.Disasm2
import Verif.Props.Wasm
/-! Property theorems C106: what the disassembler prints for a function. -/
namespace Ab.Wasm
open Sexpr Spec Spec.Wasm Spec.Disasm

theorem instructionName_eq : ∀ op : Byte, opName op = instructionName op.toNat := by decide +kernel

theorem operands_eq (f : Formatter) (i : Imm) (h : ∀ l d, i = .table l d → l.length ≤ 1) :
    putImm f i = putTrees f (operands asCharacter i) := by
  cases i with
  | none => simp [putImm, putTrees, operands]
  | typeCode t => simp [putImm, putTrees, operands, type_eq]
  | index n => simp [putImm, putTrees, operands, num_eq]
  | signature n r => simp [putImm, putTrees, operands, num_eq]
  | int n => simp only [putImm, putTrees, operands, int_eq]
  | u32 n => simp [putImm, putTrees, operands, num_eq]
  | u64 n => simp [putImm, putTrees, operands, num_eq]
  | memory a o => simp [putImm, putTrees, operands, num_eq]
  | table l d =>
    match l, h l d rfl with
    | [], _ => simp [putImm, putTrees, operands, num_eq, str_eq]
    | [t], _ => simp [putImm, putTrees, operands, num_eq, str_eq]

theorem heights_operands (i : Imm) : heights (operands asCharacter i) = 0 := by
  cases i with
  | table l d =>
    have := heights_map (g := fun (n : U32) => number asCharacter n.toNat) (fun _ => rfl) l
    simp [operands, heights, this]
  | _ => simp [operands, heights]

/-- One instruction on a line of its own. -/
theorem put_instr_fn (b : List Char) (d : Nat) (ns : Bool) (e : Expr) (hd : d ≤ 10) (hk : ∃ s, opName e.op = some s)
    (ht : ∀ l d, e.imm = .table l d → l.length ≤ 1) :
    putExpr (Formatter.freshen ⟨b, d, false, ns⟩) e = ⟨b ++ lineAt d (instruction asCharacter e), d, false, true⟩ := by
  obtain ⟨s, hs⟩ := hk
  unfold putExpr instruction
  rw [hs, ← instructionName_eq, hs, operands_eq _ _ ht, str_eq, word, Option.getD_some]
  rw [show Formatter.freshen ⟨b, d, false, ns⟩ = ⟨b ++ ['\n'], d, true, false⟩ from rfl,
    putTree_eq _ _ (by show d + 0 ≤ 10; omega), putTrees_eq _ _ _ _ (by rw [heights_operands]; exact hd)]
  simp [lineAt, lead, spaces_eq, renderAll, word, Option.getD_some]

theorem typeName_known7 (t : Byte) (h : t.toNat ∈ [0x7f, 0x7e, 0x7d, 0x7c, 0x70, 0x60, 0x40]) :
    typeName t ≠ "UNKNOWN_TYPECODE" := by
  revert h; revert t; decide +kernel

theorem print_instrs (mem : Nat) : ∀ (l : List Expr) (d : Nat) (b : List Char),
    (∀ e ∈ l, ∃ s, opName e.op = some s) → WellNested d l → deepest d l ≤ 8 →
    (∀ e ∈ l, e.op.toNat = 0x02 → ∃ t, e.imm = .typeCode t ∧ t.toNat ∈ [0x7f, 0x7e, 0x7d, 0x7c, 0x70, 0x60, 0x40]) →
    (∀ e ∈ l, ∀ l d, e.imm = .table l d → l.length ≤ 1) →
    l.foldlM printExpr ⟨⟨b, 2 + d, false, true⟩, d⟩ = .ok ⟨⟨b ++ codeLines asCharacter d l, 2, false, true⟩, 0⟩ := by
  intro l
  induction l with
  | nil =>
    intro d b _ hn _ _ _
    have hd : d = 0 := hn
    subst hd
    simp [codeLines, pure]
  | cons e l ih =>
    intro d b hk hn hd ht htab
    have hdeep : d ≤ 8 ∧ deepest (openNext d e) l ≤ 8 := by rw [deepest] at hd; omega
    have hge : ∀ d l, d ≤ deepest d l := by
      intro d l; cases l <;> rw [deepest] <;> omega
    have hnx : openNext d e ≤ 8 := Nat.le_trans (hge _ l) hdeep.2
    rw [List.foldlM_cons, codeLines]
    have ih := ih (openNext d e) (b ++ lineAt (2 + level d e) (instruction asCharacter e)) (fun x hx => hk x (by simp [hx])) hn.2 hdeep.2
      (fun x hx => ht x (by simp [hx])) (fun x hx => htab x (by simp [hx]))
    have hke := hk e (by simp)
    have hte := htab e (by simp)
    have hbe := ht e (by simp)
    have helse := hn.1
    have key : printExpr ⟨⟨b, 2 + d, false, true⟩, d⟩ e =
        .ok ⟨⟨b ++ lineAt (2 + level d e) (instruction asCharacter e), 2 + openNext d e, false, true⟩, openNext d e⟩ := by
      have hop : ∀ k : Byte, e.op = k ↔ e.op.toNat = k.toNat := fun k => ⟨fun h => by rw [h], fun h => BitVec.eq_of_toNat_eq h⟩
      unfold printExpr
      unfold level openNext at *
      have h4 : (4#8).toNat = 4 := rfl
      have h3 : (3#8).toNat = 3 := rfl
      have h2 : (2#8).toNat = 2 := rfl
      have hb : (11#8).toNat = 11 := rfl
      have h5 : (5#8).toNat = 5 := rfl
      simp only [hop, h4, h3, h2, hb, h5] at *
      by_cases c1 : e.op.toNat = 4 ∨ e.op.toNat = 3
      · rw [if_pos (show 2 ≤ e.op.toNat ∧ e.op.toNat ≤ 4 by omega)] at *
        rw [if_pos c1, if_neg (by omega), put_instr_fn b (2 + d) true e (by omega) hke hte]
        unfold Formatter.indent inc
        dsimp only
        rw [if_pos (by omega), Nat.add_assoc]
      · rw [if_neg c1]
        by_cases c2 : e.op.toNat = 2
        · obtain ⟨t, h6, h7⟩ := hbe c2
          rw [if_pos (show 2 ≤ e.op.toNat ∧ e.op.toNat ≤ 4 by omega)] at *
          rw [if_pos c2, h6]
          dsimp only
          rw [if_neg (typeName_known7 t h7), put_instr_fn b (2 + d) true e (by omega) hke hte, if_neg (by omega)]
          unfold Formatter.indent inc
          dsimp only
          rw [if_pos (by omega), Nat.add_assoc]
        · rw [if_neg (show ¬ (2 ≤ e.op.toNat ∧ e.op.toNat ≤ 4) by omega)] at *
          rw [if_neg c2]
          by_cases c3 : e.op.toNat = 11
          · rw [if_pos c3] at *
            rw [if_pos (Or.inl c3), if_pos c3]
            cases d with
            | zero => rw [if_neg (by omega), put_instr_fn b 2 true e (by omega) hke hte]
            | succ d =>
              rw [if_pos (by omega)]
              unfold Formatter.dedent dec
              dsimp only
              rw [if_pos (by omega), show 2 + (d + 1) - 1 = 2 + d by omega, put_instr_fn b (2 + d) true e (by omega) hke hte]
              rfl
          · rw [if_neg c3] at *
            rw [if_neg c3]
            by_cases c5 : e.op.toNat = 5
            · have := helse c5
              rw [if_pos c5, if_pos (Or.inr c5)]
              unfold Formatter.dedent dec
              dsimp only
              rw [if_pos (by omega), show 2 + d - 1 = 2 + (d - 1) by omega, put_instr_fn b (2 + (d - 1)) true e (by omega) hke hte]
              unfold Formatter.indent inc
              dsimp only
              rw [if_pos (by omega), show 2 + (d - 1) + 1 = 2 + d by omega]
            · rw [if_neg c5, if_neg (by omega), put_instr_fn b (2 + d) true e (by omega) hke hte]
    rw [key]
    show l.foldlM printExpr _ = _
    rw [ih, List.append_assoc]

/-- The instructions of version 1 the reader has are in its table, and a `block` has a type. -/
theorem enc_known_fn {bs : List Byte} {e : Expr} (h : EncInstr NotLongNegative bs e) (hm : ¬ Missing e.op.toNat) :
    (∃ s, opName e.op = some s) ∧ (e.op.toNat = 0x02 → ∃ t, e.imm = .typeCode t) := by
  have hall : ∀ op : Byte, Opcode op.toNat → ¬ Missing op.toNat → ∃ s, opName op = some s := by
    intro op h1 h2
    have : ∀ op : Byte, (op.toNat ≤ 0x05 ∨ (0x0b ≤ op.toNat ∧ op.toNat ≤ 0x11) ∨ (0x1a ≤ op.toNat ∧ op.toNat ≤ 0x1b) ∨
      (0x20 ≤ op.toNat ∧ op.toNat ≤ 0x24) ∨ (0x28 ≤ op.toNat ∧ op.toNat ≤ 0xbf)) →
      ¬ ((0x3f ≤ op.toNat ∧ op.toNat ≤ 0x40) ∨ (0xa7 ≤ op.toNat ∧ op.toNat ≤ 0xbf)) → (opName op).isSome = true := by decide +kernel
    exact Option.isSome_iff_exists.1 (this op h1 h2)
  cases h with
  | plain hp => exact ⟨hall _ hp.1 hm, fun h => absurd (show BlockOp _ from ⟨Nat.le_of_eq h.symm, by rw [show BitVec.toNat _ = 2 from h]; decide⟩) hp.2.1⟩
  | @block op t hp =>
    unfold BlockOp at hp
    exact ⟨hall op (Or.inl (by omega)) hm, fun _ => ⟨_, rfl⟩⟩
  | @index op _ _ hp _ =>
    unfold IndexOp at hp
    exact ⟨hall op (by unfold Opcode; omega) hm, fun h => by simp only at h; omega⟩
  | @memory op _ _ _ _ hp _ _ =>
    unfold MemoryOp at hp
    exact ⟨hall op (by unfold Opcode; omega) hm, fun h => by simp only at h; omega⟩
  | reserved hp => exact absurd (Or.inl hp) hm
  | table _ _ => exact ⟨⟨_, rfl⟩, fun h => by simp at h⟩
  | callIndirect _ => exact ⟨⟨_, rfl⟩, fun h => by simp at h⟩
  | i32 _ => exact ⟨⟨_, rfl⟩, fun h => by simp at h⟩
  | i64 _ _ => exact ⟨⟨_, rfl⟩, fun h => by simp at h⟩
  | f32 => exact ⟨⟨_, rfl⟩, fun h => by simp at h⟩
  | f64 => exact ⟨⟨_, rfl⟩, fun h => by simp at h⟩

theorem putLocal_eq (f : Formatter) (e : LocalEntry) :
    putLocal f e = putTrees f (List.replicate e.count.toNat [word "test", valueType e.type]).flatten := by
  unfold putLocal
  induction e.count.toNat generalizing f with
  | zero => rw [List.replicate_zero, List.replicate_zero, List.flatten_nil, putTrees]; rfl
  | succ n ih =>
    rw [List.replicate_succ, List.replicate_succ, List.flatten_cons, putTrees_append, List.foldl_cons, ih]
    simp [putTrees, str_eq, typeName_eq]

theorem putBody_eq (f : Formatter) (b : FunctionBody) : putBody f b = putTree f (localsTree b.locals) := by
  have key : ∀ (l : List LocalEntry) (f : Formatter),
      l.foldl (fun f l => putLocal (Formatter.str f "tttt") l) f =
        putTrees f (l.flatMap fun e => word "tttt" :: (List.replicate e.count.toNat [word "test", valueType e.type]).flatten) := by
    intro l
    induction l with
    | nil => intro f; rw [List.flatMap_nil, putTrees]; rfl
    | cons e l ih =>
      intro f
      rw [List.foldl_cons, ih, List.flatMap_cons, putTrees_append, putLocal_eq, putTrees, str_eq]
  unfold putBody localsTree
  dsimp only
  rw [key, putTree, putTrees_append, str_eq, putTrees, putTrees, putTrees, decimal_eq, putTree]

theorem height_localsTree (l : List LocalEntry) : height (localsTree l) = 1 := by
  have hr : ∀ (e : LocalEntry) n, heights (List.replicate n [word "test", valueType e.type]).flatten = 0 := by
    intro e n
    induction n with
    | zero => rfl
    | succ n ih => rw [List.replicate_succ, List.flatten_cons, heights_append, ih]; rfl
  have : ∀ l : List LocalEntry, heights (l.flatMap fun e => word "tttt" :: (List.replicate e.count.toNat [word "test", valueType e.type]).flatten) = 0 := by
    intro l
    induction l with
    | nil => rfl
    | cons e l ih => rw [List.flatMap_cons, heights_append, ih, heights, hr]; rfl
  unfold localsTree
  rw [height, heights_append, this]
  rfl

theorem put_head (b : List Char) (f : Func) (size : U32) :
    putBody (Formatter.freshen (Formatter.stop ((Formatter.str (Formatter.start (Formatter.str (Formatter.freshen ⟨b, 1, false, true⟩).start "func")) "typezz").text
      (decimal f.type.toNat)))) ⟨size, f.locals⟩ =
      ⟨b ++ lineAt 1 ("(func ".toList ++ (Tree.list [word "typezz", .atom (inDecimal f.type.toNat)]).render) ++
        lineAt 2 (localsTree f.locals).render, 2, false, true⟩ := by
  rw [putBody_eq, str_eq _ "func", str_eq _ "typezz"]
  have : ∀ g : Formatter, (Formatter.text (putTree (Formatter.start g) (word "typezz")) (decimal f.type.toNat)).stop =
      putTree g (Tree.list [word "typezz", .atom (inDecimal f.type.toNat)]) := by
    intro g
    simp [putTree, putTrees, decimal_eq]
  rw [this, start_eq, putTree_eq _ (word "func") (by simp [height, inc, Formatter.freshen, word]), putTree_eq _ (Tree.list _) (by simp [height, heights, inc, Formatter.freshen])]
  rw [show ∀ b d, Formatter.freshen ⟨b, d, false, true⟩ = ⟨b ++ ['\n'], d, true, false⟩ from fun _ _ => rfl,
    putTree_eq _ _ (by rw [height_localsTree]; simp [Formatter.freshen, inc])]
  simp [Formatter.freshen, lead, inc, lineAt, word, Tree.render, indentation]

/-- **C106**, one function: handed a function whose size is given as that of its instructions, the printer, between two lines of
the module, writes its text, consumes its bytes, and is between two lines again. -/
theorem C106_function_partial (mem : Nat) (p : Printer) (k : Nat) (f : Func) (b : List Char) (suf : List Byte) (off : Nat)
    (hp : p.out = ⟨b, 1, false, true⟩) (hk : p.types[k]? = some f.type) (hf : Printable f) (hmem : 4 * f.code.length ≤ mem) :
    Printer.body mem p k ⟨BitVec.ofNat 32 f.code.length, f.locals⟩ ⟨f.code ++ suf, false, false, off⟩ =
      .ok (⟨⟨b ++ funcText asCharacter f, 1, false, true⟩, p.types, p.console ++ funcNote f⟩,
        ⟨suf, false, false, off + f.code.length⟩) := by
  have hsz : (BitVec.ofNat 32 f.code.length).toNat = f.code.length := by
    rw [BitVec.toNat_ofNat]; exact Nat.mod_eq_of_lt hf.size
  have hall : ∀ e ∈ f.instrs, ∃ bs, EncInstr NotLongNegative bs e := fun e he => encSeq_mem hf.encoded e he
  have h1 := put_head b f (BitVec.ofNat 32 f.code.length)
  have h4 : funcText asCharacter f = lineAt 1 ("(func ".toList ++ (Tree.list [word "typezz", .atom (inDecimal f.type.toNat)]).render) ++
    lineAt 2 (localsTree f.locals).render ++ codeLines asCharacter 0 f.instrs ++ [')'] := rfl
  rw [h4]
  revert h1
  generalize lineAt 1 ("(func ".toList ++ (Tree.list [word "typezz", .atom (inDecimal f.type.toNat)]).render) = x1
  generalize lineAt 2 (localsTree f.locals).render = x2
  intro h1
  have h2 := C61_instructions_partial mem printExpr f.code f.instrs hf.encoded hf.some hf.known hmem suf off
    ⟨⟨b ++ x1 ++ x2, 2, false, true⟩, 0⟩
  have h3 := print_instrs mem f.instrs 0 (b ++ x1 ++ x2)
    (fun e he => by obtain ⟨bs, h⟩ := hall e he; exact (enc_known_fn h (hf.known e he)).1)
    hf.nested hf.shallow
    (fun e he h => by
      obtain ⟨bs, h'⟩ := hall e he
      obtain ⟨t, ht⟩ := (enc_known_fn h' (hf.known e he)).2 h
      exact ⟨t, ht, hf.types e he h t ht⟩)
    hf.tables
  rw [show (2 + 0) = 2 from rfl] at h3
  rw [h3] at h2
  unfold Printer.body
  rw [hk]
  dsimp only
  rw [hp, h1, hsz, show (⟨f.code ++ suf, false, false, off⟩ : In) = good (f.code ++ suf) off from rfl, h2]
  simp only [Outcome.ok_bind, Outcome.pure_eq]
  rw [show bodyNote ⟨BitVec.ofNat 32 f.code.length, f.locals⟩ = funcNote f from rfl]
  simp only [Formatter.stop, dec, good, List.append_assoc]
  rfl

/-- What handing the printer a function does to it. -/
def printBody (mem : Nat) (p : Printer) (k : Nat) (b : FunctionBody) (code : List Byte) : Outcome Printer := do
  let (p, _) ← Printer.body mem p k b ⟨code, false, false, 0⟩
  pure p

/-- **C106**: told of the functions of a module, each size given as that of the instructions, the printer writes the text of each
function, in order. -/
theorem C106_text_partial (mem : Nat) (fs : List Func) (hf : ∀ f ∈ fs, Printable f ∧ 4 * f.code.length ≤ mem) :
    ∃ q, tell (wastPrinter mem false) (printBody mem) Printer.new (funcCalls fs) = .ok q ∧
      q.out.buffer = "(module".toList ++ fs.flatMap (funcText asCharacter) ++ ")\n".toList ∧
      q.console = fs.flatMap funcNote := by
  have entries : ∀ (l : List Func) (k : Nat) (p : Printer) (rest : List Call),
      tell (wastPrinter mem false) (printBody mem) p
        (((l.zipIdx k).map fun (x : Func × Nat) => .event (.functionEntry x.2 x.1.type)) ++ rest) =
      tell (wastPrinter mem false) (printBody mem) { p with types := p.types ++ l.map (·.type) } rest := by
    intro l
    induction l with
    | nil => intro k p rest; simp
    | cons f l ih =>
      intro k p rest
      rw [List.zipIdx_cons, List.map_cons, List.cons_append, tell]
      show (Outcome.ok _ >>= _) = _
      simp only [Outcome.ok_bind]
      rw [ih]
      simp
  have bodies : ∀ (l : List Func) (k : Nat) (p : Printer) (b : List Char), p.out = ⟨b, 1, false, true⟩ →
      (∀ i f, l[i]? = some f → p.types[k + i]? = some f.type) → (∀ f ∈ l, Printable f ∧ 4 * f.code.length ≤ mem) →
      tell (wastPrinter mem false) (printBody mem) p
        ((l.zipIdx k).flatMap fun (x : Func × Nat) => [.body x.2 ⟨BitVec.ofNat 32 x.1.code.length, x.1.locals⟩ x.1.code,
          .event (.functionBodyEnd ⟨BitVec.ofNat 32 x.1.code.length, x.1.locals⟩)]) =
      .ok ⟨⟨b ++ l.flatMap (funcText asCharacter), 1, false, true⟩, p.types, p.console ++ l.flatMap funcNote⟩ := by
    intro l
    induction l with
    | nil =>
      intro k p b hp _ _
      obtain ⟨out, ty, con⟩ := p
      simp only at hp
      subst hp
      simp [tell]
    | cons f l ih =>
      intro k p b hp hty hpr
      rw [List.zipIdx_cons, List.flatMap_cons, tell_append, tell]
      have h1 := C106_function_partial mem p k f b [] 0 hp (hty 0 f rfl) (hpr f (by simp)).1 (hpr f (by simp)).2
      rw [List.append_nil] at h1
      rw [show printBody mem p k ⟨BitVec.ofNat 32 f.code.length, f.locals⟩ f.code = .ok _ by unfold printBody; rw [h1]; rfl]
      simp only [Outcome.ok_bind]
      rw [show ∀ s, tell (wastPrinter mem false) (printBody mem) s
        [.event (.functionBodyEnd ⟨BitVec.ofNat 32 f.code.length, f.locals⟩)] = .ok s from fun _ => rfl]
      simp only [Outcome.ok_bind]
      rw [ih (k + 1) _ _ rfl (fun i g hg => by
        have := hty (i + 1) g (by simpa using hg)
        rw [show k + 1 + i = k + (i + 1) by omega]; exact this) (fun g hg => hpr g (by simp [hg]))]
      simp
  refine ⟨⟨⟨"(module".toList ++ fs.flatMap (funcText asCharacter) ++ ")\n".toList, 0, true, false⟩, fs.map (·.type), fs.flatMap funcNote⟩, ?_, rfl, rfl⟩
  unfold funcCalls
  rw [List.append_assoc, List.append_assoc, List.cons_append, List.cons_append, List.nil_append, tell]
  show (Outcome.ok _ >>= _) = _
  simp only [Outcome.ok_bind]
  rw [tell]
  show (Outcome.ok _ >>= _) = _
  simp only [Outcome.ok_bind]
  rw [entries fs 0, tell_append, bodies fs 0 _ "(module".toList (show Formatter.str Printer.new.out.start "module" = _ by decide) (by
      intro i f hf
      show ([] ++ fs.map (·.type))[0 + i]? = _
      rw [List.nil_append, Nat.zero_add, List.getElem?_map, hf]; rfl) hf]
  simp only [Outcome.ok_bind]
  simp [tell, wastPrinter, Printer.event, Formatter.stop, Formatter.freshen, dec, Printer.new]

/-- The text printed. -/
def printed : Outcome Printer → List Char
  | .ok p => p.out.buffer
  | _ => []

/-- Nine blocks inside each other: `block … end`, and the `end` of the function. -/
def nineBlocks : Func :=
  ⟨0#32, [], List.replicate 9 ⟨0x02#8, .typeCode 0x40#8⟩ ++ List.replicate 10 ⟨0x0b#8, .none⟩,
    (List.replicate 9 [0x02#8, 0x40#8]).flatten ++ List.replicate 10 0x0b#8⟩

/-- `br_table` with two targets and a default, and the `end` of the function. -/
def twoTargets : Func :=
  ⟨0#32, [], [⟨0x0e#8, .table [1#32, 2#32] 3#32⟩, ⟨0x0b#8, .none⟩], [0x0e#8, 2#8, 1#8, 2#8, 3#8, 0x0b#8]⟩

/-- **C106** is false of the code even where the size is given as that of the instructions: the indentation grows no further than
ten levels but is taken back in full, so that after nine blocks the last `end` stands to the left of its place; and of a branch table
only the default and the first target are shown. (Where the size is given as the format demands, nothing is printed: C65.) -/
theorem C106_negation :
    EncSeq (EncInstr NotLongNegative) nineBlocks.code nineBlocks.instrs ∧ WellNested 0 nineBlocks.instrs ∧
    (tell (wastPrinter 1000 false) (printBody 1000) Printer.new (funcCalls [nineBlocks])).isOk = true ∧
    printed (tell (wastPrinter 1000 false) (printBody 1000) Printer.new (funcCalls [nineBlocks])) ≠
      "(module".toList ++ funcText asCharacter nineBlocks ++ ")\n".toList ∧
    EncSeq (EncInstr NotLongNegative) twoTargets.code twoTargets.instrs ∧ WellNested 0 twoTargets.instrs ∧
    (tell (wastPrinter 1000 false) (printBody 1000) Printer.new (funcCalls [twoTargets])).isOk = true ∧
    printed (tell (wastPrinter 1000 false) (printBody 1000) Printer.new (funcCalls [twoTargets])) ≠
      "(module".toList ++ funcText asCharacter twoTargets ++ ")\n".toList := by
  have hend : EncInstr NotLongNegative [0x0b#8] ⟨0x0b#8, .none⟩ :=
    .plain (by simp [PlainOp, Opcode, BlockOp, IndexOp, MemoryOp, ReservedOp])
  have hblk : EncInstr NotLongNegative [0x02#8, 0x40#8] ⟨0x02#8, .typeCode 0x40#8⟩ := .block ⟨by decide, by decide⟩
  have hends : ∀ n, EncSeq (EncInstr NotLongNegative) (List.replicate n 0x0b#8) (List.replicate n ⟨0x0b#8, .none⟩) := by
    intro n
    induction n with
    | zero => exact .nil
    | succ n ih => exact .cons (bs := [0x0b#8]) hend ih
  have hblks : ∀ n cs l, EncSeq (EncInstr NotLongNegative) cs l → EncSeq (EncInstr NotLongNegative)
      ((List.replicate n [0x02#8, 0x40#8]).flatten ++ cs) (List.replicate n ⟨0x02#8, .typeCode 0x40#8⟩ ++ l) := by
    intro n cs l h
    induction n with
    | zero => exact h
    | succ n ih => exact .cons (bs := [0x02#8, 0x40#8]) hblk ih
  refine ⟨hblks 9 _ _ (hends 10), ?_, by decide +kernel, by decide +kernel, ?_, ?_, by decide +kernel, by decide +kernel⟩
  · simp [nineBlocks, WellNested, openNext]
  · refine .cons (bs := [0x0e#8, 2#8, 1#8, 2#8, 3#8]) ?_ (.cons (bs := [0x0b#8]) hend .nil)
    exact .table (ls := [2#8, 1#8, 2#8]) (ds := [3#8])
      (encVec_cons (.cons (bs := [1#8]) (encU32_digit 1 (by decide)) (.cons (bs := [2#8]) (encU32_digit 2 (by decide)) .nil)) 2 rfl (by decide))
      (encU32_digit 3 (by decide))
  · simp [twoTargets, WellNested, openNext]

/-- A function with two locals that meets the hypotheses of `C106_text_partial`: `get_local 0; if i32; i32_const -5; else; nop; end;
br_table 0 default 1; end`. -/
example : Printable ⟨3#32, [⟨2#32, 0x7f#8⟩],
    [⟨0x20#8, .index 0#64⟩, ⟨0x04#8, .typeCode 0x7f#8⟩, ⟨0x41#8, .int (BitVec.ofInt 64 (-5))⟩, ⟨0x05#8, .none⟩, ⟨0x01#8, .none⟩,
      ⟨0x0b#8, .none⟩, ⟨0x0e#8, .table [0#32] 1#32⟩, ⟨0x0b#8, .none⟩],
    [0x20#8, 0#8, 0x04#8, 0x7f#8, 0x41#8, 0x7b#8, 0x05#8, 0x01#8, 0x0b#8, 0x0e#8, 1#8, 0#8, 1#8, 0x0b#8]⟩ := by
  have hp : ∀ op : Byte, PlainOp op.toNat → EncInstr NotLongNegative [op] ⟨op, .none⟩ := fun op h => .plain h
  refine ⟨?_, by simp, ?_, ?_, ?_, ?_, ?_, by decide⟩
  · refine .cons (bs := [0x20#8, 0#8]) (.index (by simp [IndexOp]) (encU32_digit 0 (by decide))) ?_
    refine .cons (bs := [0x04#8, 0x7f#8]) (.block ⟨by decide, by decide⟩) ?_
    refine .cons (bs := [0x41#8, 0x7b#8]) (.i32 ⟨by simp [IsLeb, Continues], by simp, by decide +kernel, by decide, by decide⟩) ?_
    refine .cons (bs := [0x05#8]) (hp _ (by simp [PlainOp, Opcode, BlockOp, IndexOp, MemoryOp, ReservedOp])) ?_
    refine .cons (bs := [0x01#8]) (hp _ (by simp [PlainOp, Opcode, BlockOp, IndexOp, MemoryOp, ReservedOp])) ?_
    refine .cons (bs := [0x0b#8]) (hp _ (by simp [PlainOp, Opcode, BlockOp, IndexOp, MemoryOp, ReservedOp])) ?_
    refine .cons (bs := [0x0e#8, 1#8, 0#8, 1#8]) (.table (ls := [1#8, 0#8]) (ds := [1#8])
      (encVec_cons (.cons (bs := [0#8]) (encU32_digit 0 (by decide)) .nil) 1 rfl (by decide)) (encU32_digit 1 (by decide))) ?_
    exact .cons (bs := [0x0b#8]) (hp _ (by simp [PlainOp, Opcode, BlockOp, IndexOp, MemoryOp, ReservedOp])) .nil
  · intro e he
    simp only [List.mem_cons, List.not_mem_nil, or_false] at he
    rcases he with rfl | rfl | rfl | rfl | rfl | rfl | rfl | rfl <;> simp [Missing, ReservedOp]
  · simp [WellNested, openNext]
  · simp [deepest, openNext]
  · intro e he
    simp only [List.mem_cons, List.not_mem_nil, or_false] at he
    rcases he with rfl | rfl | rfl | rfl | rfl | rfl | rfl | rfl <;> simp
  · intro e he
    simp only [List.mem_cons, List.not_mem_nil, or_false] at he
    rcases he with rfl | rfl | rfl | rfl | rfl | rfl | rfl | rfl <;> simp

end Ab.Wasm
