import Verif.Spec.Disasm2
import Verif.Proof.Disasm
/-! The disassembler when it is asked to be verbose. -/
namespace Ab.Wasm
open Sexpr Spec Spec.Wasm Spec.Disasm

/-- A line break, if there is one. -/
def brk (nl : Bool) : List Char := if nl then ['\n'] else []

/-- The printer at level `d` with `b` written, at the beginning of a line or not. -/
def Ins (p : Printer) (d : Nat) (nl : Bool) (b : List Char) : Prop := p.out = ⟨b ++ brk nl, d, nl, !nl⟩ ∧ p.console = []

theorem spaces_eq (d : Nat) : indentation d = List.replicate (2 * d) ' ' := by
  induction d with
  | zero => rfl
  | succ d ih =>
    rw [indentation, ih, show 2 * (d + 1) = 2 * d + 2 by omega, ← List.replicate_append_replicate]
    rfl

theorem Ins.freshen {p : Printer} {d : Nat} {nl : Bool} {b : List Char} (h : Ins p d nl b) :
    p.out.freshen = ⟨b ++ ['\n'], d, true, false⟩ := by
  rw [h.1]; unfold Formatter.freshen
  cases nl <;> simp [brk]

theorem put_lineAt {p : Printer} {d : Nat} {nl : Bool} {b : List Char} (h : Ins p d nl b) (t : Tree) (ht : d + height t ≤ 10) :
    putTree p.out.freshen t = ⟨b ++ lineAt d t.render, d, false, true⟩ := by
  rw [h.freshen, putTree_eq _ t ht]
  simp [lineAt, lead, spaces_eq]

/-- Calls that print one line for each item. -/
theorem tell_lines_at (mem : Nat) (v : Bool) (be : Printer → Nat → FunctionBody → List Byte → Outcome Printer) (d : Nat) {α : Type}
    {g : α → List Call} {t : α → Tree} {l : List α}
    (h : ∀ a ∈ l, ∀ p nl b, Ins p d nl b → ∃ q, tell (wastPrinter mem v) be p (g a) = .ok q ∧ Ins q d false (b ++ lineAt d (t a).render))
    (p : Printer) (nl : Bool) (b : List Char) (hp : Ins p d nl b) :
    ∃ q, tell (wastPrinter mem v) be p (l.flatMap g) = .ok q ∧
      Ins q d (nl && l.isEmpty) (b ++ (l.map t).flatMap fun t => lineAt d t.render) := by
  induction l generalizing p nl b with
  | nil => exact ⟨p, rfl, by simpa using hp⟩
  | cons a l ih =>
    obtain ⟨q, h1, h2⟩ := h a (by simp) p nl b hp
    obtain ⟨r, h3, h4⟩ := ih (fun a ha => h a (by simp [ha])) q _ _ h2
    refine ⟨r, ?_, by simpa using h4⟩
    rw [List.flatMap_cons, tell_append, h1]
    exact h3

theorem tell_line_at (mem : Nat) (v : Bool) (be : Printer → Nat → FunctionBody → List Byte → Outcome Printer) (d : Nat) (p : Printer)
    (nl : Bool) (b : List Char) (hp : Ins p d nl b) (e : Event) (t : Tree) (ht : d + height t ≤ 10)
    (h : Printer.event v p e = .ok { p with out := putTree p.out.freshen t }) :
    ∃ q, tell (wastPrinter mem v) be p [.event e] = .ok q ∧ Ins q d false (b ++ lineAt d t.render) := by
  refine ⟨{ p with out := putTree p.out.freshen t }, ?_, ?_, hp.2⟩
  · show (Printer.event v p e >>= _) = _
    rw [h]
    rfl
  · show putTree p.out.freshen t = _
    rw [put_lineAt hp t ht]
    simp [brk]

theorem decimal_eq (n : Nat) : decimal n = inDecimal n := rfl

/-- The line on the number of entries. -/
theorem put_count (p : Printer) (nl : Bool) (b : List Char) (hp : Ins p 2 nl b) (n : Nat) (hn : n < 2^64) :
    Ins { p with out := putCount p.out (BitVec.ofNat 64 n) } 2 true (b ++ countLine (some n)) := by
  refine ⟨?_, hp.2⟩
  show (p.out.freshen.text _).freshen = _
  rw [hp.freshen, text_eq, BitVec.toNat_ofNat, Nat.mod_eq_of_lt hn]
  simp [lead, spaces_eq, Formatter.freshen, brk, countLine, lineAt, decimal_eq]

theorem tell_content_verbose (mem : Nat) (be : Printer → Nat → FunctionBody → List Byte → Outcome Printer) (c : Content)
    (hr : Readable (fun _ _ => False) c ∨ ∃ n q, c = .custom n q)
    (hc : ∀ n, countOf c = some n → n < 2^64)
    (hi : ∀ l, c = .globals l → ∀ g ∈ l, IsInit g.2)
    (he : ∀ l, c = .elements l → ∀ g ∈ l, IsInit g.offset)
    (hd : ∀ l, c = .data l → ∀ g ∈ l, IsInit g.init) (p : Printer) (b : List Char) (hp : Ins p 2 false b) :
    ∃ q, tell (wastPrinter mem true) be p (contentCalls c) = .ok q ∧
      Ins q 2 (decide (countOf c = some 0)) (b ++ (countLine (countOf c) ++ (items asCharacter c).flatMap fun t => lineAt 2 t.render)) := by
  have plain : ∀ {q : Printer} {b' : List Char}, Ins q 2 false b' → countOf c = none →
      ∀ {x}, b' = b ++ x → Ins q 2 (decide (countOf c = some 0)) (b ++ (countLine (countOf c) ++ x)) := by
    intro q b' h hn x hx
    rw [hn, ← List.append_assoc, show b ++ countLine none = b by simp [countLine], ← hx]
    exact h
  cases c with
  | custom n q => exact ⟨p, rfl, by simpa [items, countOf, countLine] using hp⟩
  | types l =>
    rw [contentCalls, flatMap_single, tell]
    have h1 := put_count p false b hp l.length (hc _ rfl)
    obtain ⟨q, h2, h3⟩ := tell_lines_at mem true be 2 (t := funcTypeTree) (l := l) (fun t _ p nl b hp =>
      tell_line_at mem true be 2 p nl b hp (.functionType t) (funcTypeTree t) (by have := height_funcType t; omega)
        (by rw [Printer.event, putFunctionType_eq, freshen_twice])) _ _ _ h1
    refine ⟨q, h2, ?_⟩
    rw [List.append_assoc] at h3
    have e : decide (countOf (.types l) = some 0) = (true && l.isEmpty) := by cases l <;> simp [countOf]
    rw [e]
    exact h3
  | imports l =>
    rw [contentCalls, flatMap_single, tell]
    have h1 := put_count p false b hp l.length (hc _ rfl)
    obtain ⟨q, h2, h3⟩ := tell_lines_at mem true be 2 (t := importTree asCharacter) (l := l) (fun t _ p nl b hp =>
      tell_line_at mem true be 2 p nl b hp (.importEntry t) (importTree asCharacter t) (by have := height_import asCharacter t; omega)
        (by rw [Printer.event, putImport_eq])) _ _ _ h1
    refine ⟨q, h2, ?_⟩
    rw [List.append_assoc] at h3
    have e : decide (countOf (.imports l) = some 0) = (true && l.isEmpty) := by cases l <;> simp [countOf]
    rw [e]
    exact h3
  | functions l =>
    rw [contentCalls]
    have : ∀ (k : Nat) (p : Printer), Ins p 2 false b → ∃ q, tell (wastPrinter mem true) be p
        ((l.zipIdx k).map fun (x : U32 × Nat) => .event (.functionEntry x.2 x.1)) = .ok q ∧ Ins q 2 false b := by
      clear hr hp plain
      induction l with
      | nil => intro k p hp; exact ⟨p, rfl, hp⟩
      | cons a l ih =>
        intro k p hp
        exact ih (by simp [countOf]) (by simp) (by simp) (by simp) (k + 1) _ ⟨hp.1, hp.2⟩
    obtain ⟨q, h1, h2⟩ := this 0 p hp
    exact ⟨q, h1, plain h2 rfl (by simp [items])⟩
  | tables => rcases hr with h | ⟨_, _, h⟩ <;> cases h
  | memories => rcases hr with h | ⟨_, _, h⟩ <;> cases h
  | globals l =>
    rw [contentCalls, flatMap_single]
    obtain ⟨q, h1, h2⟩ := tell_lines_at mem true be 2 (t := globalTree asCharacter) (l := l) (fun t ht p nl b hp =>
      tell_line_at mem true be 2 p nl b hp (.globalEntry t.1 t.2) (globalTree asCharacter t) (by have := height_global asCharacter t; omega)
        (by rw [Printer.event, putGlobalType_eq, putExpr_eq _ _ (hi _ rfl t ht)]
            simp [globalTree, putTree, putTrees, str_eq])) p false b hp
    exact ⟨q, h1, plain h2 rfl rfl⟩
  | exports l =>
    rw [contentCalls, flatMap_single]
    obtain ⟨q, h1, h2⟩ := tell_lines_at mem true be 2 (t := exportTree asCharacter) (l := l) (fun t _ p nl b hp =>
      tell_line_at mem true be 2 p nl b hp (.exportEntry t) (exportTree asCharacter t) (by have := height_export asCharacter t; omega)
        (by rw [Printer.event, putExport_eq])) p false b hp
    exact ⟨q, h1, plain h2 rfl rfl⟩
  | start => rcases hr with h | ⟨_, _, h⟩ <;> cases h
  | elements l =>
    rw [contentCalls]
    obtain ⟨q, h1, h2⟩ := tell_lines_at mem true be 2 (t := elementsTree asCharacter) (g := elementCalls) (l := l) (fun t ht p nl b hp => by
      have hx : IsInit t.offset := he _ rfl t ht
      unfold elementCalls
      simp only [List.cons_append, tell]
      have key : ∀ (e : ElementEntry) (l : List U32) (p : Printer), tell (wastPrinter mem true) be p
          ((l.map fun n => .event (.element e n)) ++ [.event (.elementEntryEnd e)]) =
          .ok { p with out := (putTrees p.out (l.map fun n => number asCharacter n.toNat)).stop } := by
        intro e l
        induction l with
        | nil => intro p; rw [List.map_nil, List.map_nil, putTrees]; rfl
        | cons a l ih =>
          intro p
          rw [List.map_cons, List.map_cons, List.cons_append, tell, putTrees]
          show (Outcome.ok _ >>= _) = _
          simp only [Outcome.ok_bind]
          rw [ih, num_eq]
      show ∃ q, (Outcome.ok _ >>= _) = _ ∧ _
      simp only [Outcome.ok_bind]
      rw [key]
      refine ⟨_, rfl, ?_, hp.2⟩
      have e := put_lineAt hp (elementsTree asCharacter t) (by have := height_elements asCharacter t; omega)
      simp only [brk, Bool.false_eq_true, if_false, List.append_nil, Bool.not_false]
      rw [← e, str_eq, putExpr_eq _ _ hx]
      simp [elementsTree, putTree, putTrees]) p false b hp
    exact ⟨q, h1, plain h2 rfl rfl⟩
  | code l =>
    rcases hr with h | ⟨_, _, h⟩
    · cases l with
      | nil => exact ⟨p, rfl, by simpa [items, countOf, countLine] using hp⟩
      | cons f l => exact (h f (by simp)).elim
    · cases h
  | data l =>
    rw [contentCalls, flatMap_single]
    obtain ⟨q, h1, h2⟩ := tell_lines_at mem true be 2 (t := dataTree asCharacter) (l := l) (fun t ht p nl b hp =>
      tell_line_at mem true be 2 p nl b hp (.dataSegment t) (dataTree asCharacter t) (by have := height_data asCharacter t; omega)
        (by rw [Printer.event, putData_eq _ _ (hd _ rfl t ht)])) p false b hp
    exact ⟨q, h1, plain h2 rfl rfl⟩

/-- What the visitor is told of a section. -/
def told (s : WSection) : Section := ⟨s.content.code', s.length, match s.content with | .custom n _ => n | _ => []⟩

theorem putSection_eq (f : Formatter) (s : WSection) : putSection f (told s) = putTree f (sectionTree asCharacter s) := by
  obtain ⟨c, n⟩ := s
  cases c <;>
    simp [putSection, told, sectionTree, Content.code', putTree, putTrees, str_eq, num_eq, sectionKind, sectionCodeName, word]

theorem height_section (s : WSection) : height (sectionTree asCharacter s) ≤ 2 := by
  obtain ⟨c, n⟩ := s
  cases c <;> simp [sectionTree, height, heights]

theorem start_section (p : Printer) (nl : Bool) (b : List Char) (hp : Ins p 1 nl b) (s : WSection) :
    ∃ q, Printer.event true p (.sectionStart (told s)) = .ok q ∧
      Ins q 2 false (b ++ lineAt 1 (";;;;;;;;;;;;;; ".toList ++ (sectionTree asCharacter s).render)) := by
  refine ⟨_, rfl, ?_, hp.2⟩
  show Formatter.indent (putSection (Formatter.str p.out.freshen ";;;;;;;;;;;;;;") (told s)) = _
  rw [putSection_eq, hp.freshen]
  have e : Formatter.str ⟨b ++ ['\n'], 1, true, false⟩ ";;;;;;;;;;;;;;" = ⟨b ++ "\n  ;;;;;;;;;;;;;;".toList, 1, false, true⟩ := by
    show Formatter.text _ _ = _
    rw [text_eq]
    simp [lead, indentation]
  rw [e, putTree_eq _ _ (by have := height_section s; show 1 + _ ≤ 10; omega)]
  simp [Formatter.indent, inc, brk, lead, lineAt]

theorem tell_section_verbose (mem : Nat) (be : Printer → Nat → FunctionBody → List Byte → Outcome Printer) {L : List Byte → Prop}
    (s : WSection) {cs : List Byte} (hs : EncSection L cs s)
    (hr : Readable (fun _ _ => False) s.content ∨ ∃ n q, s.content = .custom n q) (p : Printer) (nl : Bool) (b : List Char) (hp : Ins p 1 nl b) :
    ∃ q, tell (wastPrinter mem true) be p (sectionCalls s) = .ok q ∧
      Ins q 1 (decide (countOf s.content = some 0)) (b ++ verboseSection asCharacter s) := by
  obtain ⟨n, q, -, -, hl, hc⟩ := hs
  obtain ⟨q0, h0, hq0⟩ := start_section p nl b hp s
  obtain ⟨q1, h1, h2⟩ := tell_content_verbose mem be s.content hr
    (by
      intro n hn
      cases h : s.content <;> rw [h] at hn hc <;> simp only [countOf, Option.some.injEq, reduceCtorEq] at hn
      all_goals
        obtain ⟨_, _, _, hlt, _⟩ := hc
        omega)
    (by
      intro l hl g hg
      rw [hl] at hc
      obtain ⟨_, _, _, _, _, hi⟩ := encVec_mem hc g hg
      exact isInit hi)
    (by
      intro l hl g hg
      rw [hl] at hc
      obtain ⟨_, _, _, _, _, _, hi, _⟩ := encVec_mem hc g hg
      exact isInit hi)
    (by
      intro l hl g hg
      rw [hl] at hc
      obtain ⟨_, _, _, _, _, _, hi, _⟩ := encVec_mem hc g hg
      exact isInit hi) q0 _ hq0
  refine ⟨{ q1 with out := Formatter.dedent q1.out }, ?_, ?_, h2.2⟩
  · unfold sectionCalls
    show tell _ _ _ (Call.event (.sectionStart (told s)) :: contentCalls s.content ++ _) = _
    rw [List.cons_append, tell]
    show (Printer.event true p (.sectionStart (told s)) >>= _) = _
    rw [h0]
    simp only [Outcome.ok_bind]
    rw [tell_append, h1]
    rfl
  · simp only
    rw [h2.1]
    simp only [Formatter.dedent, dec, verboseSection]
    simp

theorem tell_sections_verbose (mem : Nat) (be : Printer → Nat → FunctionBody → List Byte → Outcome Printer) {L : List Byte → Prop}
    {bs : List Byte} {m : List WSection} (h : EncSeq (EncSection L) bs m)
    (hr : ∀ s ∈ m, Readable (fun _ _ => False) s.content ∨ ∃ n q, s.content = .custom n q) (p : Printer) (nl : Bool) (b : List Char)
    (hp : Ins p 1 nl b) :
    ∃ q, tell (wastPrinter mem true) be p (m.flatMap sectionCalls) = .ok q ∧
      Ins q 1 (match m.getLast? with | some s => decide (countOf s.content = some 0) | none => nl)
        (b ++ m.flatMap (verboseSection asCharacter)) := by
  induction h generalizing p nl b with
  | nil => exact ⟨p, rfl, by simpa using hp⟩
  | @cons cs s ds m hs hd ih =>
    obtain ⟨q1, h1, h2⟩ := tell_section_verbose mem be s hs (hr s (by simp)) p nl b hp
    obtain ⟨q2, h3, h4⟩ := ih (fun s hs => hr s (by simp [hs])) q1 _ _ h2
    refine ⟨q2, ?_, ?_⟩
    · rw [List.flatMap_cons, tell_append, h1]
      exact h3
    · rw [List.flatMap_cons, ← List.append_assoc]
      cases m with
      | nil => simpa using h4
      | cons a m =>
        have e : (s :: a :: m).getLast? = (a :: m).getLast? := List.getLast?_cons_cons
        rw [e]
        cases hg : (a :: m).getLast? with
        | none => simp at hg
        | some x => rw [hg] at h4; exact h4

end Ab.Wasm
