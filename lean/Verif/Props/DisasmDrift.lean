import Verif.Spec.DisasmDrift
import Verif.Props.DisasmCode
/-! C106, for functions nested to any depth: the exact text. -/
namespace Ab.Wasm
open Sexpr Spec Spec.Wasm Spec.Disasm

namespace Drift

theorem shownOperands_eq (f : Formatter) (i : Imm) : putImm f i = putTrees f (shownOperands asCharacter i) := by
  cases i with
  | table l d => cases l <;> simp [putImm, putTrees, shownOperands, num_eq, str_eq]
  | _ => exact operands_eq f _ (fun l d h => by cases h)

theorem heights_shown (i : Imm) : heights (shownOperands asCharacter i) = 0 := by
  cases i with
  | table l d => cases l <;> simp [shownOperands, heights, height, number, word]
  | _ => simp [shownOperands, operands, heights]

theorem put_instr (b : List Char) (d : Nat) (ns : Bool) (e : Expr) (hd : d ≤ 10) (hk : ∃ s, opName e.op = some s) :
    putExpr (Formatter.freshen ⟨b, d, false, ns⟩) e = ⟨b ++ lineAt d (shownInstruction asCharacter e), d, false, true⟩ := by
  obtain ⟨s, hs⟩ := hk
  unfold putExpr shownInstruction
  rw [hs, ← instructionName_eq, hs, shownOperands_eq, str_eq, word, Option.getD_some]
  rw [show Formatter.freshen ⟨b, d, false, ns⟩ = ⟨b ++ ['\n'], d, true, false⟩ from rfl,
    putTree_eq _ _ (by show d + 0 ≤ 10; omega), putTrees_eq _ _ _ _ (by rw [heights_shown]; exact hd)]
  simp [lineAt, lead, spaces_eq, renderAll, word, Option.getD_some]

theorem inc_eq {k : Nat} (h : k ≤ 10) : inc k = deeper k := by unfold inc deeper; split <;> omega
theorem dec_eq (k : Nat) : dec k = k - 1 := by unfold dec; split <;> omega

theorem print_one (k d : Nat) (b : List Char) (e : Expr) (hk : k ≤ 10) (hs : ∃ s, opName e.op = some s)
    (ht : e.op.toNat = 0x02 → ∃ t, e.imm = .typeCode t ∧ t.toNat ∈ [0x7f, 0x7e, 0x7d, 0x7c, 0x70, 0x60, 0x40]) :
    printExpr ⟨⟨b, k, false, true⟩, d⟩ e =
      .ok ⟨⟨b ++ lineAt (lineLevel k d e) (shownInstruction asCharacter e), levelAfter k d e, false, true⟩, openNext d e⟩ := by
  have hop : ∀ c : Byte, e.op = c ↔ e.op.toNat = c.toNat := fun c => ⟨fun h => by rw [h], fun h => BitVec.eq_of_toNat_eq h⟩
  have h4 : (4#8).toNat = 4 := rfl
  have h3 : (3#8).toNat = 3 := rfl
  have h2 : (2#8).toNat = 2 := rfl
  have hb : (11#8).toNat = 11 := rfl
  have h5 : (5#8).toNat = 5 := rfl
  have put := fun k (h : k ≤ 10) => put_instr b k true e h hs
  unfold printExpr levelAfter lineLevel openNext
  simp only [hop, h4, h3, h2, hb, h5]
  by_cases c1 : e.op.toNat = 4 ∨ e.op.toNat = 3
  · rw [if_pos c1, put k hk]
    rw [if_neg (show ¬ (e.op.toNat = 5 ∨ (e.op.toNat = 11 ∧ 0 < d)) by omega), if_pos (by omega), if_pos (by omega)]
    unfold Formatter.indent
    dsimp only
    rw [inc_eq hk]
  · rw [if_neg c1]
    by_cases c2 : e.op.toNat = 2
    · obtain ⟨t, h6, h7⟩ := ht c2
      rw [if_pos c2, h6]
      dsimp only
      rw [if_neg (typeName_known7 t h7), put k hk]
      rw [if_neg (show ¬ (e.op.toNat = 5 ∨ (e.op.toNat = 11 ∧ 0 < d)) by omega), if_pos (by omega), if_pos (by omega)]
      unfold Formatter.indent
      dsimp only
      rw [inc_eq hk]
    · rw [if_neg c2]
      by_cases c3 : e.op.toNat = 11
      · rw [if_pos c3, if_neg (show ¬ ((2 ≤ e.op.toNat ∧ e.op.toNat ≤ 4) ∨ e.op.toNat = 5) by omega),
          if_neg (show ¬ (2 ≤ e.op.toNat ∧ e.op.toNat ≤ 4) by omega), if_pos c3]
        by_cases hd : 0 < d
        · rw [if_pos hd, if_pos (Or.inr ⟨c3, hd⟩)]
          unfold Formatter.dedent
          dsimp only
          rw [dec_eq, put (k - 1) (by omega)]
        · rw [if_neg hd, if_neg (by omega), put k hk]
          rw [show d - 1 = d by omega]
      · rw [if_neg c3, if_neg (show ¬ (2 ≤ e.op.toNat ∧ e.op.toNat ≤ 4) by omega), if_neg c3]
        by_cases c5 : e.op.toNat = 5
        · rw [if_pos c5, if_pos (Or.inl c5), if_pos (Or.inr c5)]
          unfold Formatter.dedent
          dsimp only
          rw [dec_eq, put (k - 1) (by omega)]
          unfold Formatter.indent
          dsimp only
          rw [inc_eq (by omega)]
        · rw [if_neg c5, if_neg (by omega), if_neg (by omega), put k hk]

theorem levelAfter_le {k d : Nat} {e : Expr} (h : k ≤ 10) : levelAfter k d e ≤ 10 := by
  have : lineLevel k d e ≤ 10 := by unfold lineLevel; split <;> omega
  unfold levelAfter deeper
  split <;> omega

theorem print_all : ∀ (l : List Expr) (k d : Nat) (b : List Char), k ≤ 10 → (∀ e ∈ l, ∃ s, opName e.op = some s) →
    (∀ e ∈ l, e.op.toNat = 0x02 → ∃ t, e.imm = .typeCode t ∧ t.toNat ∈ [0x7f, 0x7e, 0x7d, 0x7c, 0x70, 0x60, 0x40]) →
    l.foldlM printExpr ⟨⟨b, k, false, true⟩, d⟩ =
      .ok ⟨⟨b ++ shownLines asCharacter k d l, levelAtEnd k d l, false, true⟩, l.foldl openNext d⟩
  | [], k, d, b, _, _, _ => by simp [shownLines, levelAtEnd, pure]
  | e :: l, k, d, b, hk, hs, ht => by
    rw [List.foldlM_cons, print_one k d b e hk (hs e (by simp)) (ht e (by simp)), Outcome.ok_bind,
      print_all l _ _ _ (levelAfter_le hk) (fun x hx => hs x (by simp [hx])) (fun x hx => ht x (by simp [hx]))]
    rw [shownLines, levelAtEnd, List.append_assoc, List.foldl_cons]

/-- The level never stands further in than the open blocks account for. -/
theorem level_le (k0 : Nat) : ∀ (l : List Expr) (k d : Nat), WellNested d l → k ≤ k0 + d → levelAtEnd k d l ≤ k0
  | [], k, d, hn, hk => by
    have : d = 0 := hn
    rw [levelAtEnd]; omega
  | e :: l, k, d, hn, hk => by
    rw [levelAtEnd]
    refine level_le k0 l _ _ hn.2 ?_
    have := hn.1
    unfold levelAfter lineLevel openNext deeper
    split
    · rename_i h
      rcases h with h | h
      · rw [if_neg (by omega), if_pos h]; omega
      · rw [if_pos (Or.inl h), if_neg (by omega), if_neg (by omega)]
        have := this h
        omega
    · rename_i h
      split
      · rw [if_neg (by omega), if_pos (by omega)]; omega
      · rw [if_neg (by omega)]
        split <;> omega

theorem levelOut_le {f : Func} (h : Readable f) {k : Nat} (hk : k ≤ 1) : levelOut k f ≤ 1 := by
  have := level_le (k + 1) f.instrs (k + 1) 0 h.nested (Nat.le_refl _)
  unfold levelOut
  omega

theorem put_head' (b : List Char) (k : Nat) (hk : k ≤ 1) (f : Func) (size : U32) :
    putBody (Formatter.freshen (Formatter.stop ((Formatter.str (Formatter.start (Formatter.str (Formatter.freshen ⟨b, k, false, true⟩).start "func")) "typezz").text
      (decimal f.type.toNat)))) ⟨size, f.locals⟩ =
      ⟨b ++ lineAt k ("(func ".toList ++ (Tree.list [word "typezz", .atom (inDecimal f.type.toNat)]).render) ++
        lineAt (k + 1) (localsTree f.locals).render, k + 1, false, true⟩ := by
  have hk' : k = 0 ∨ k = 1 := by omega
  rw [putBody_eq, str_eq _ "func", str_eq _ "typezz"]
  have : ∀ g : Formatter, (Formatter.text (putTree (Formatter.start g) (word "typezz")) (decimal f.type.toNat)).stop =
      putTree g (Tree.list [word "typezz", .atom (inDecimal f.type.toNat)]) := by
    intro g
    simp [putTree, putTrees, decimal_eq]
  rcases hk' with rfl | rfl
  · rw [this, start_eq, putTree_eq _ (word "func") (by simp [height, inc, Formatter.freshen, word]), putTree_eq _ (Tree.list _) (by simp [height, heights, inc, Formatter.freshen])]
    rw [show ∀ b d, Formatter.freshen ⟨b, d, false, true⟩ = ⟨b ++ ['\n'], d, true, false⟩ from fun _ _ => rfl,
      putTree_eq _ _ (by rw [height_localsTree]; simp [Formatter.freshen, inc])]
    simp [Formatter.freshen, lead, inc, lineAt, word, Tree.render, indentation]
  · rw [this, start_eq, putTree_eq _ (word "func") (by simp [height, inc, Formatter.freshen, word]), putTree_eq _ (Tree.list _) (by simp [height, heights, inc, Formatter.freshen])]
    rw [show ∀ b d, Formatter.freshen ⟨b, d, false, true⟩ = ⟨b ++ ['\n'], d, true, false⟩ from fun _ _ => rfl,
      putTree_eq _ _ (by rw [height_localsTree]; simp [Formatter.freshen, inc])]
    simp [Formatter.freshen, lead, inc, lineAt, word, Tree.render, indentation]

theorem print_function (mem : Nat) (p : Printer) (i : Nat) (f : Func) (b : List Char) (k : Nat) (hk1 : k ≤ 1) (suf : List Byte) (off : Nat)
    (hp : p.out = ⟨b, k, false, true⟩) (hk : p.types[i]? = some f.type) (hf : Readable f) (hmem : 4 * f.code.length ≤ mem) :
    Printer.body mem p i ⟨BitVec.ofNat 32 f.code.length, f.locals⟩ ⟨f.code ++ suf, false, false, off⟩ =
      .ok (⟨⟨b ++ shownFunc asCharacter k f, levelOut k f, false, true⟩, p.types, p.console ++ funcNote f⟩,
        ⟨suf, false, false, off + f.code.length⟩) := by
  have hsz : (BitVec.ofNat 32 f.code.length).toNat = f.code.length := by
    rw [BitVec.toNat_ofNat]; exact Nat.mod_eq_of_lt hf.size
  have hall : ∀ e ∈ f.instrs, ∃ bs, EncInstr NotLongNegative bs e := fun e he => encSeq_mem hf.encoded e he
  have h1 := put_head' b k hk1 f (BitVec.ofNat 32 f.code.length)
  have h4 : shownFunc asCharacter k f = lineAt k ("(func ".toList ++ (Tree.list [word "typezz", .atom (inDecimal f.type.toNat)]).render) ++
    lineAt (k + 1) (localsTree f.locals).render ++ shownLines asCharacter (k + 1) 0 f.instrs ++ [')'] := rfl
  rw [h4]
  revert h1
  generalize lineAt k ("(func ".toList ++ (Tree.list [word "typezz", .atom (inDecimal f.type.toNat)]).render) = x1
  generalize lineAt (k + 1) (localsTree f.locals).render = x2
  intro h1
  have h2 := C61_instructions_partial mem printExpr f.code f.instrs hf.encoded hf.some hf.known hmem suf off
    ⟨⟨b ++ x1 ++ x2, k + 1, false, true⟩, 0⟩
  have h3 := print_all f.instrs (k + 1) 0 (b ++ x1 ++ x2) (by omega)
    (fun e he => by obtain ⟨bs, h⟩ := hall e he; exact (enc_known_fn h (hf.known e he)).1)
    (fun e he h => by
      obtain ⟨bs, h'⟩ := hall e he
      obtain ⟨t, ht⟩ := (enc_known_fn h' (hf.known e he)).2 h
      exact ⟨t, ht, hf.types e he h t ht⟩)
  rw [h3] at h2
  unfold Printer.body
  rw [hk]
  dsimp only
  rw [hp, h1, hsz, show (⟨f.code ++ suf, false, false, off⟩ : In) = good (f.code ++ suf) off from rfl, h2]
  simp only [Outcome.ok_bind, Outcome.pure_eq]
  rw [show bodyNote ⟨BitVec.ofNat 32 f.code.length, f.locals⟩ = funcNote f from rfl]
  simp only [Formatter.stop, dec_eq, good, List.append_assoc]
  rfl

end Drift

open Drift

/-- C106, functions nested to any depth: told of the functions of a module, each size given as that of the instructions, the printer
writes the text of each function in order, with lines no further in than ten levels and every `end` taking one back, and with the
first target of each branch table. Missing: the proper text, which this is not (`C106_negation`). -/
theorem C106_any_depth_partial (mem : Nat) (fs : List Func) (hf : ∀ f ∈ fs, Readable f ∧ 4 * f.code.length ≤ mem) :
    ∃ q, tell (wastPrinter mem false) (printBody mem) Printer.new (funcCalls fs) = .ok q ∧
      q.out.buffer = "(module".toList ++ shownFuncs asCharacter 1 fs ++ ")\n".toList ∧
      q.console = fs.flatMap funcNote := by
  have entries : ∀ (l : List Func) (k : Nat) (p : Printer) (rest : List Call),
      tell (wastPrinter mem false) (printBody mem) p
        (((l.zipIdx k).map fun (x : Func × Nat) => .event (.functionEntry x.2 x.1.type)) ++ rest) =
      tell (wastPrinter mem false) (printBody mem) { p with types := p.types ++ l.map (·.type) } rest := by
    intro l
    induction l with
    | nil => intro k p rest; simp
    | cons f l ih =>
      intro k p rest
      rw [List.zipIdx_cons, List.map_cons, List.cons_append, tell]
      show (Outcome.ok _ >>= _) = _
      simp only [Outcome.ok_bind]
      rw [ih]
      simp
  have bodies : ∀ (l : List Func) (k j : Nat) (p : Printer) (b : List Char), j ≤ 1 → p.out = ⟨b, j, false, true⟩ →
      (∀ i f, l[i]? = some f → p.types[k + i]? = some f.type) → (∀ f ∈ l, Readable f ∧ 4 * f.code.length ≤ mem) →
      ∃ j', tell (wastPrinter mem false) (printBody mem) p
        ((l.zipIdx k).flatMap fun (x : Func × Nat) => [.body x.2 ⟨BitVec.ofNat 32 x.1.code.length, x.1.locals⟩ x.1.code,
          .event (.functionBodyEnd ⟨BitVec.ofNat 32 x.1.code.length, x.1.locals⟩)]) =
      .ok ⟨⟨b ++ shownFuncs asCharacter j l, j', false, true⟩, p.types, p.console ++ l.flatMap funcNote⟩ := by
    intro l
    induction l with
    | nil =>
      intro k j p b _ hp _ _
      obtain ⟨out, ty, con⟩ := p
      simp only at hp
      subst hp
      exact ⟨j, by simp [tell, shownFuncs]⟩
    | cons f l ih =>
      intro k j p b hj hp hty hpr
      rw [List.zipIdx_cons, List.flatMap_cons, tell_append, tell]
      have h1 := print_function mem p k f b j hj [] 0 hp (hty 0 f rfl) (hpr f (by simp)).1 (hpr f (by simp)).2
      rw [List.append_nil] at h1
      rw [show printBody mem p k ⟨BitVec.ofNat 32 f.code.length, f.locals⟩ f.code = .ok _ by unfold printBody; rw [h1]; rfl]
      simp only [Outcome.ok_bind]
      rw [show ∀ s, tell (wastPrinter mem false) (printBody mem) s
        [.event (.functionBodyEnd ⟨BitVec.ofNat 32 f.code.length, f.locals⟩)] = .ok s from fun _ => rfl]
      simp only [Outcome.ok_bind]
      obtain ⟨j', h2⟩ := ih (k + 1) (levelOut j f)
        ⟨⟨b ++ shownFunc asCharacter j f, levelOut j f, false, true⟩, p.types, p.console ++ funcNote f⟩ _ (levelOut_le (hpr f (by simp)).1 hj) rfl (fun i g hg => by
        have := hty (i + 1) g (by simpa using hg)
        rw [show k + 1 + i = k + (i + 1) by omega]; exact this) (fun g hg => hpr g (by simp [hg]))
      refine ⟨j', h2.trans ?_⟩
      simp [shownFuncs]
  obtain ⟨j', hb⟩ := bodies fs 0 1 ⟨⟨"(module".toList, 1, false, true⟩, fs.map (·.type), []⟩ "(module".toList (Nat.le_refl _) rfl (by
      intro i f hf
      show (fs.map (·.type))[0 + i]? = _
      rw [Nat.zero_add, List.getElem?_map, hf]; rfl) hf
  refine ⟨⟨⟨"(module".toList ++ shownFuncs asCharacter 1 fs ++ ")\n".toList, j' - 1, true, false⟩, fs.map (·.type), fs.flatMap funcNote⟩, ?_, rfl, rfl⟩
  unfold funcCalls
  rw [List.append_assoc, List.append_assoc, List.cons_append, List.cons_append, List.nil_append, tell]
  show (Outcome.ok _ >>= _) = _
  simp only [Outcome.ok_bind]
  rw [tell]
  show (Outcome.ok _ >>= _) = _
  simp only [Outcome.ok_bind]
  rw [entries fs 0, tell_append]
  have e : Formatter.str Printer.new.out.start "module" = ⟨"(module".toList, 1, false, true⟩ := by decide
  rw [e]
  dsimp only [Printer.new]
  rw [List.nil_append, hb]
  simp only [Outcome.ok_bind]
  simp [tell, wastPrinter, Printer.event, Formatter.stop, Formatter.freshen, dec_eq]

/-- C92, code nested to any depth: the exact text, and the level after it. Missing: the proper text, which this is not beyond ten levels
(`C92_negation`). -/
theorem C92_any_depth_partial (mem : Nat) (bs : List Byte) (l : List Expr) (h : EncSeq (EncInstr NotLongNegative) bs l) (hl : l ≠ [])
    (hm : ∀ e ∈ l, ¬ Missing e.op.toNat)
    (ht : ∀ e ∈ l, e.op.toNat = 0x02 → ∀ t, e.imm = .typeCode t → t.toNat ∈ [0x7f, 0x7e, 0x7d, 0x7c, 0x70, 0x60, 0x40])
    (hmem : 4 * bs.length ≤ mem) (b : List Char) (k : Nat) (hk : k ≤ 10) (suf : List Byte) (off : Nat) :
    readExprs mem printExpr off bs.length ((bs ++ suf).length + 1) ⟨⟨b, k, false, true⟩, 0⟩ (good (bs ++ suf) off) =
      .ok (⟨⟨b ++ shownLines asCharacter k 0 l, levelAtEnd k 0 l, false, true⟩, l.foldl openNext 0⟩, good suf (off + bs.length)) := by
  have hall : ∀ e ∈ l, ∃ bs, EncInstr NotLongNegative bs e := fun e he => encSeq_mem h e he
  rw [C61_instructions_partial mem printExpr bs l h hl hm hmem, print_all l k 0 b hk
    (fun e he => by obtain ⟨bs, h⟩ := hall e he; exact (enc_known_fn h (hm e he)).1)
    (fun e he h => by
      obtain ⟨bs, h'⟩ := hall e he
      obtain ⟨t, ht'⟩ := (enc_known_fn h' (hm e he)).2 h
      exact ⟨t, ht', ht e he h t ht'⟩)]
  rfl

/-- Nine blocks inside each other are within the theorem; the text of a function after them begins at level 0 instead of 1. -/
example : Readable nineBlocks ∧ levelOut 1 nineBlocks = 0 ∧ shownFuncs asCharacter 1 [nineBlocks, twoTargets] =
    shownFunc asCharacter 1 nineBlocks ++ (shownFunc asCharacter 0 twoTargets ++ []) :=
  ⟨⟨C106_negation.1, by simp [nineBlocks], by
    intro e he
    have : e = ⟨0x02#8, .typeCode 0x40#8⟩ ∨ e = ⟨0x0b#8, .none⟩ := by
      simp only [nineBlocks, List.mem_append, List.mem_replicate] at he
      rcases he with he | he
      · exact Or.inl he.2
      · exact Or.inr he.2
    rcases this with rfl | rfl <;> simp [Missing, ReservedOp], C106_negation.2.1, by
    intro e he h t ht
    have : e = ⟨0x02#8, .typeCode 0x40#8⟩ ∨ e = ⟨0x0b#8, .none⟩ := by
      simp only [nineBlocks, List.mem_append, List.mem_replicate] at he
      rcases he with he | he
      · exact Or.inl he.2
      · exact Or.inr he.2
    rcases this with rfl | rfl
    · injection ht with ht; subst ht; simp
    · exact absurd ht (by simp), by simp [nineBlocks]⟩, by decide +kernel, rfl⟩

end Ab.Wasm
