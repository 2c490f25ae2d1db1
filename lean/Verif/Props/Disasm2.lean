import Verif.Proof.Disasm2
import Verif.Props.Disasm
/-! C91: the disassembler when it is asked to be verbose. -/
namespace Ab.Wasm
open Sexpr Spec Spec.Wasm Spec.Disasm

/-- C91, exact text: for any module as in C66, the verbose text has a line describing each section, the number of types
and of imports, and the lines of the plain text, indented once more. -/
theorem C91_text_partial (mem : Nat) (bytes : List Byte) (m last : List WSection) (h : EncModule NotLongNegative bytes (m ++ last))
    (hm : ∀ s ∈ m, Readable (fun _ _ => False) s.content)
    (hl : last = [] ∨ ∃ name payload len, last = [⟨.custom name payload, len⟩] ∧ NoNul name)
    (hmem : 8 * bytes.length ≤ mem) :
    dump mem true bytes = .ok ⟨[], verboseText asCharacter (m ++ last)⟩ := by
  have hC := C62_module_partial (wastPrinter mem true) _ _ (printer_reads mem true) bytes m last h hm hl hmem Printer.new
  obtain ⟨cs, -, hs⟩ := h
  have hr : ∀ s ∈ m ++ last, Readable (fun _ _ => False) s.content ∨ ∃ n q, s.content = .custom n q := by
    intro s hs
    rcases List.mem_append.1 hs with hs | hs
    · exact Or.inl (hm s hs)
    · rcases hl with rfl | ⟨name, payload, len, rfl, -⟩
      · cases hs
      · rw [List.mem_singleton] at hs
        subst hs
        exact Or.inr ⟨_, _, rfl⟩
  obtain ⟨q, h1, h2⟩ := tell_sections_verbose mem (fun p _ _ _ => .ok p) hs hr ⟨⟨"(module".toList, 1, false, true⟩, [], []⟩ false
    "(module".toList ⟨by simp [brk], rfl⟩
  have ht : tell (wastPrinter mem true) (fun p _ _ _ => .ok p) Printer.new (moduleCalls (m ++ last)) =
      .ok { q with out := q.out.stop.freshen } := by
    unfold moduleCalls
    rw [List.append_assoc, List.cons_append, List.cons_append, List.nil_append]
    simp only [tell]
    rw [show (wastPrinter mem true).event = Printer.event true from rfl,
      show Printer.event true Printer.new .moduleStart = .ok ⟨⟨"(module".toList, 1, false, true⟩, [], []⟩ by decide +kernel]
    simp only [Outcome.ok_bind, Printer.event]
    rw [tell_append, h1]
    rfl
  rw [ht] at hC
  unfold dump
  have hfin : (⟨q.console, q.out.stop.freshen.buffer⟩ : Dumped) = ⟨[], verboseText asCharacter (m ++ last)⟩ := by
    rw [h2.2, h2.1]
    unfold verboseText Formatter.stop Formatter.freshen
    simp only [Bool.false_eq_true, if_false]
    cases (m ++ last).getLast? with
    | none => simp [brk]
    | some s =>
      by_cases hz : countOf s.content = some 0
      · simp [brk, hz]
      · simp [brk, hz]
  revert hC
  generalize readModule (wastPrinter mem true) Printer.new bytes = o
  intro hC
  obtain ⟨x, hx⟩ : ∃ x, o = .ok x := by
    cases o with
    | ok x => exact ⟨x, rfl⟩
    | _ => exact absurd hC nofun
  subst hx
  have hq : x.1 = { q with out := q.out.stop.freshen } := by
    injection hC
  show Outcome.ok (⟨x.1.console, x.1.out.buffer⟩ : Dumped) = _
  rw [hq, ← hfin]

/-! ### Comments -/

theorem uncomment_newline (b : Bool) (l : List Char) : uncomment b ('\n' :: l) = '\n' :: uncomment false l := by
  rw [uncomment]

theorem uncomment_other (b : Bool) (c : Char) (l : List Char) (h1 : c ≠ '\n') (h2 : c ≠ ';' ∨ l.head? ≠ some ';') :
    uncomment b (c :: l) = if b then uncomment true l else c :: uncomment false l := by
  rw [uncomment.eq_def]
  split
  · rename_i h; cases h
  · rename_i h; injection h with h; exact absurd h h1
  · rename_i h
    injection h with h h'
    subst h'
    rcases h2 with h2 | h2
    · exact absurd h h2
    · exact absurd rfl h2
  · rename_i h; injection h with h h'; subst h h'; rfl

theorem uncomment_inside (a r : List Char) (h : '\n' ∉ a) : uncomment true (a ++ '\n' :: r) = '\n' :: uncomment false r := by
  have key : ∀ n (a : List Char), a.length ≤ n → '\n' ∉ a → uncomment true (a ++ '\n' :: r) = '\n' :: uncomment false r := by
    intro n
    induction n with
    | zero => intro a hn _; cases a with
      | nil => exact uncomment_newline _ _
      | cons => simp at hn
    | succ n ih =>
      intro a hn ha
      cases a with
      | nil => exact uncomment_newline _ _
      | cons c a =>
        simp only [List.length_cons] at hn
        have hc : c ≠ '\n' := fun e => ha (by simp [e])
        have ha' : '\n' ∉ a := fun e => ha (by simp [e])
        by_cases h2 : c ≠ ';' ∨ (a ++ '\n' :: r).head? ≠ some ';'
        · rw [List.cons_append, uncomment_other _ _ _ hc h2, if_pos rfl]
          exact ih a (by omega) ha'
        · rw [not_or] at h2
          simp only [ne_eq, Decidable.not_not] at h2
          cases a with
          | nil => simp at h2
          | cons d a =>
            simp only [List.cons_append, List.head?_cons, Option.some.injEq] at h2
            rw [h2.1, h2.2]
            simp only [List.length_cons] at hn
            show uncomment true (';' :: ';' :: (a ++ '\n' :: r)) = _
            rw [uncomment]
            exact ih a (by omega) (fun e => ha' (by simp [e]))
  exact key a.length a (Nat.le_refl _) h

/-- No two semicolons in a row. -/
def NoComment (t : List Char) : Prop := ∀ a b, t ≠ a ++ ';' :: ';' :: b

theorem uncomment_plain (t r : List Char) (h : NoComment t) (hr : r.head? ≠ some ';') : uncomment false (t ++ r) = t ++ uncomment false r := by
  induction t with
  | nil => rfl
  | cons c t ih =>
    have ih := ih (fun a b e => h (c :: a) b (by rw [e]; rfl))
    rw [List.cons_append, List.cons_append]
    by_cases hc : c = '\n'
    · subst hc; rw [uncomment_newline, ih]
    · rw [uncomment_other _ _ _ hc, if_neg (by simp), ih]
      cases t with
      | nil => exact Or.inr hr
      | cons d t =>
        by_cases hd : d = ';'
        · left; intro e; exact h [] t (by rw [e, hd]; rfl)
        · right; simpa using hd

theorem uncomment_spaces (n : Nat) (r : List Char) : uncomment false (List.replicate n ' ' ++ r) = List.replicate n ' ' ++ uncomment false r := by
  induction n with
  | zero => rfl
  | succ n ih =>
    rw [List.replicate_succ, List.cons_append, List.cons_append, uncomment_other _ _ _ (by decide) (Or.inl (by decide)), if_neg (by simp), ih]

theorem compact_append (a b : List Char) : compact (a ++ b) = compact a ++ compact b := List.filter_append ..

theorem compact_spaces (n : Nat) : compact (List.replicate n ' ') = [] := by
  unfold compact
  rw [List.filter_eq_nil_iff]
  intro c hc
  rw [List.eq_of_mem_replicate hc]
  decide

/-- What is left of a text, without white space. -/
def left (t : List Char) : List Char := compact (uncomment false t)

theorem left_entry (d : Nat) (s r : List Char) (h : NoComment s) (hr : r.head? ≠ some ';') : left (lineAt d s ++ r) = compact s ++ left r := by
  unfold left lineAt
  rw [List.append_assoc, List.cons_append, uncomment_newline, uncomment_spaces, uncomment_plain s r h hr]
  show compact (['\n'] ++ (_ ++ _)) = _
  rw [compact_append, compact_append, compact_append, compact_spaces]
  rfl

theorem left_comment (d : Nat) (s r : List Char) (h : '\n' ∉ s) : left (lineAt d (';' :: ';' :: s) ++ '\n' :: r) = left ('\n' :: r) := by
  unfold left lineAt
  rw [List.append_assoc, List.cons_append, uncomment_newline, uncomment_spaces]
  have : uncomment false ((';' :: ';' :: s) ++ '\n' :: r) = uncomment true (s ++ '\n' :: r) := by
    rw [List.cons_append, List.cons_append, uncomment]
  rw [this]
  have h2 := uncomment_inside s r h
  rw [h2, uncomment_newline]
  show compact (['\n'] ++ (_ ++ (['\n'] ++ _))) = compact (['\n'] ++ _)
  rw [compact_append, compact_append, compact_append, compact_spaces]
  rfl

theorem left_entries (l : List Tree) (h : ∀ t ∈ l, NoComment t.render) (r : List Char) (hr : r.head? ≠ some ';') :
    left ((l.flatMap fun t => lineAt 2 t.render) ++ r) = compact (l.flatMap fun t => lineAt 1 t.render) ++ left r := by
  induction l with
  | nil => rfl
  | cons t l ih =>
    rw [List.flatMap_cons, List.flatMap_cons, List.append_assoc, left_entry 2 _ _ (h t (by simp)), ih (fun t ht => h t (by simp [ht])), compact_append]
    · have : compact (lineAt 1 t.render) = compact t.render := by
        show compact (['\n'] ++ ([' ', ' '] ++ _)) = _
        rw [compact_append, compact_append]
        rfl
      rw [this, List.append_assoc]
    · cases l with
      | nil => exact hr
      | cons a l => simp [lineAt]

/-- The description of a section fits on its line: the size is not shown as a line break, nor is there one in the name. -/
def OneLine (s : WSection) : Prop :=
  s.length.toNat % 256 ≠ 10 ∧ ∀ n q, s.content = .custom n q → 10#8 ∉ n

/-- A section that ends with an entry or, when it has none, with the number of entries. -/
def Shows (s : WSection) : Prop := items asCharacter s.content ≠ [] ∨ countOf s.content = some 0

theorem chr_newline (b : Byte) : chr b = '\n' → b = 10#8 := by revert b; decide +kernel

theorem oneLine {s : WSection} (h : OneLine s) : '\n' ∉ (sectionTree asCharacter s).render := by
  obtain ⟨c, n⟩ := s
  obtain ⟨h1, h2⟩ := h
  have hs : asCharacter n.toNat ≠ ['\n'] := by
    intro e
    unfold asCharacter at e
    injection e with e
    have := chr_newline _ e
    apply h1
    have h3 := congrArg BitVec.toNat this
    simp at h3
    simpa using h3
  have hs' : '\n' ∉ asCharacter (n.toNat : Int) := by
    unfold asCharacter at hs ⊢
    intro e
    simp only [List.mem_singleton] at e
    rw [← e] at hs
    exact hs rfl
  have strs : '\n' ∉ "section".toList ∧ '\n' ∉ "code".toList ∧ '\n' ∉ "size".toList ∧ '\n' ∉ "name".toList := by decide
  have kinds : ∀ c : Content, '\n' ∉ (sectionKind c).toList := by intro c; cases c <;> simp only [sectionKind] <;> decide
  have hk := kinds c
  have base : ∀ x : List Tree, '\n' ∉ renderRest x →
      '\n' ∉ (Tree.list ([word "section", .list [word "code", word (sectionKind c)]] ++ x)).render := by
    intro x hx
    simp only [Tree.render, renderAll, renderRest, word, List.cons_append, List.nil_append]
    simp only [List.mem_cons, List.mem_append, not_or, List.not_mem_nil, not_false_eq_true, and_true]
    exact ⟨by decide, ⟨strs.1, by decide, by decide, ⟨⟨strs.2.1, by decide, hk⟩, by decide⟩, hx⟩, by decide⟩
  have size : '\n' ∉ renderRest [Tree.list [word "size", number asCharacter n.toNat]] := by
    simp only [Tree.render, renderAll, renderRest, word, number, List.append_nil]
    simp only [List.cons_append, List.mem_cons, List.mem_append, not_or, List.not_mem_nil, not_false_eq_true, and_true]
    exact ⟨by decide, by decide, ⟨strs.2.2.1, by decide, hs'⟩, by decide⟩
  unfold sectionTree
  rw [List.append_assoc]
  apply base
  cases c with
  | custom nm q =>
    have hn : '\n' ∉ nm.map chr := by
      intro e
      obtain ⟨b, hb, hc⟩ := List.mem_map.1 e
      rw [chr_newline b hc] at hb
      exact h2 nm q rfl hb
    simp only [List.cons_append, List.nil_append]
    rw [renderRest]
    intro e
    rcases List.mem_append.1 e with e | e
    · revert e
      simp only [Tree.render, renderAll, renderRest, word, List.append_nil]
      simp only [List.cons_append, List.mem_cons, List.mem_append, List.not_mem_nil, or_false]
      rintro (e | e | (e | e | e) | e)
      · revert e; decide
      · revert e; decide
      · exact strs.2.2.2 e
      · revert e; decide
      · exact hn e
      · revert e; decide
    · exact size e
  | _ => exact size

theorem decimal_oneLine (n : Nat) : '\n' ∉ inDecimal n := by
  rw [← decimal_eq]
  intro h
  unfold decimal at h
  rw [show toString n = n.repr from rfl, Nat.toList_repr] at h
  have := Nat.isDigit_of_mem_toDigits (by decide) (by decide) h
  revert this
  decide

theorem left_section (s : WSection) (h : OneLine s) (hi : ∀ t ∈ items asCharacter s.content, NoComment t.render) (r : List Char)
    (hr : r.head? = some '\n' ∨ (r.head? ≠ some ';' ∧ items asCharacter s.content ≠ [])) :
    left (verboseSection asCharacter s ++ r) =
      compact ((items asCharacter s.content).flatMap fun t => lineAt 1 t.render) ++ left r := by
  have hr' : r.head? ≠ some ';' := by
    rcases hr with hr | hr
    · rw [hr]; decide
    · exact hr.1
  -- what follows the comments begins a line
  have nl : ∃ r', ((items asCharacter s.content).flatMap fun t => lineAt 2 t.render) ++ r = '\n' :: r' := by
    cases hl : items asCharacter s.content with
    | nil =>
      rw [hl] at hr
      rcases hr with hr | hr
      · cases r with
        | nil => cases hr
        | cons c r => simp only [List.head?_cons, Option.some.injEq] at hr; subst hr; exact ⟨r, rfl⟩
      · exact absurd rfl hr.2
    | cons t l => exact ⟨_, rfl⟩
  obtain ⟨r', hr2⟩ := nl
  have hcount : left (countLine (countOf s.content) ++ '\n' :: r') = left ('\n' :: r') := by
    cases hc : countOf s.content with
    | none => rfl
    | some n =>
      refine left_comment 2 (" count: ".toList ++ inDecimal n) r' ?_
      intro e
      rcases List.mem_append.1 e with e | e
      · revert e; decide
      · exact decimal_oneLine n e
  have hfirst : ∃ r'', countLine (countOf s.content) ++ '\n' :: r' = '\n' :: r'' := by
    cases hc : countOf s.content with
    | none => exact ⟨r', rfl⟩
    | some n => exact ⟨_, rfl⟩
  unfold verboseSection
  rw [List.append_assoc, List.append_assoc, hr2]
  obtain ⟨r'', hf⟩ := hfirst
  rw [hf]
  have hh := left_comment 1 (";;;;;;;;;;;; ".toList ++ (sectionTree asCharacter s).render) r'' (by
    intro e
    rcases List.mem_append.1 e with e | e
    · revert e; decide
    · exact oneLine h e)
  rw [show ";;;;;;;;;;;;;; ".toList ++ (sectionTree asCharacter s).render =
    ';' :: ';' :: (";;;;;;;;;;;; ".toList ++ (sectionTree asCharacter s).render) from rfl, hh, ← hf, hcount, ← hr2]
  exact left_entries _ hi r hr'

theorem left_sections (m : List WSection) (h : ∀ s ∈ m, OneLine s) (hi : ∀ s ∈ m, ∀ t ∈ items asCharacter s.content, NoComment t.render)
    (hl : ∀ s, m.getLast? = some s → Shows s) (b : Bool)
    (hb : ∀ s, m.getLast? = some s → (b = true ↔ countOf s.content = some 0)) (hb0 : m = [] → b = false) :
    left (m.flatMap (verboseSection asCharacter) ++ (brk b ++ ")\n".toList)) =
      compact ((m.flatMap fun s => items asCharacter s.content).flatMap fun t => lineAt 1 t.render) ++ [')'] := by
  induction m with
  | nil => rw [hb0 rfl]; rfl
  | cons s m ih =>
    rw [List.flatMap_cons, List.flatMap_cons, List.append_assoc, left_section s (h s (by simp)) (hi s (by simp)), List.flatMap_append, compact_append,
      List.append_assoc]
    · cases m with
      | nil =>
        have : left (brk b ++ ")\n".toList) = [')'] := by cases b <;> decide
        rw [List.flatMap_nil, List.nil_append, this]; rfl
      | cons a m =>
        rw [ih (fun s hs => h s (by simp [hs])) (fun s hs => hi s (by simp [hs])) (fun s hs => hl s (by rw [List.getLast?_cons_cons]; exact hs))
          (fun s hs => hb s (by rw [List.getLast?_cons_cons]; exact hs)) (by simp)]
    · cases m with
      | nil =>
        rcases hl s rfl with hs | hs
        · right
          refine ⟨?_, hs⟩
          cases b <;> decide
        · left
          rw [(hb s rfl).2 hs]
          rfl
      | cons a m => left; rfl

/-- C91, comments: apart from comments and white space, the verbose text is the plain text. Missing, besides what C66 leaves out: modules whose
last section shows nothing, sections whose size is shown as a line break (10, 266, …) or with a line break in their name, and entries with two semicolons in a row (see
`C91_negation`). -/
theorem C91_same_without_comments_partial (mem : Nat) (bytes : List Byte) (m last : List WSection) (h : EncModule NotLongNegative bytes (m ++ last))
    (hm : ∀ s ∈ m, Readable (fun _ _ => False) s.content)
    (hl : last = [] ∨ ∃ name payload len, last = [⟨.custom name payload, len⟩] ∧ NoNul name)
    (hmem : 8 * bytes.length ≤ mem)
    (ho : ∀ s ∈ m ++ last, OneLine s) (hi : ∀ s ∈ m ++ last, ∀ t ∈ items asCharacter s.content, NoComment t.render)
    (hs : ∀ s, (m ++ last).getLast? = some s → Shows s) :
    ∃ v p, dump mem true bytes = .ok ⟨[], v⟩ ∧ dump mem false bytes = .ok ⟨[], p⟩ ∧
      compact (uncomment false v) = compact p := by
  refine ⟨_, _, C91_text_partial mem bytes m last h hm hl hmem, C66_text_partial mem bytes m last h hm hl hmem, ?_⟩
  generalize m ++ last = k at *
  have e : ∃ b, verboseText asCharacter k = "(module".toList ++ (k.flatMap (verboseSection asCharacter) ++ (brk b ++ ")\n".toList)) ∧
      (∀ s, k.getLast? = some s → (b = true ↔ countOf s.content = some 0)) ∧ (k = [] → b = false) := by
    unfold verboseText
    cases hk : k.getLast? with
    | none => exact ⟨false, by simp [brk], by simp, fun _ => rfl⟩
    | some s =>
      refine ⟨decide (countOf s.content = some 0), ?_, ?_, ?_⟩
      · by_cases hz : countOf s.content = some 0 <;> simp [brk, hz]
      · intro s' hs'; injection hs' with hs'; subst hs'; simp
      · rintro rfl; simp at hk
  obtain ⟨b, e, hb, hb0⟩ := e
  rw [e]
  have hh := left_sections k ho hi hs b hb hb0
  unfold left at hh
  rw [uncomment_plain, compact_append, hh]
  · unfold text
    rw [compact_append, compact_append, List.append_assoc]
    have : ∀ t : Tree, lineAt 1 t.render = "\n  ".toList ++ t.render := fun t => rfl
    simp only [this]
    rfl
  · have : ∀ (t : List Char), ';' ∉ t → NoComment t := by
      intro t ht a b e
      apply ht
      rw [e]
      simp
    exact this _ (by decide)
  · cases k with
    | nil => rw [hb0 rfl]; decide
    | cons s k => simp [verboseSection, lineAt]

/-- The module of C66: section 7 has five bytes. -/
example : dump 1000 true (hdr ++ [7, 5, 1, 1, 0x66, 0, 65]) =
    .ok ⟨[], ("(module\n  ;;;;;;;;;;;;;; (section (code EXPORT) (size " ++ String.ofList [chr 5] ++ "))\n    (export \"f\" (func A)))\n").toList⟩ := by
  rw [C91_text_partial 1000 _ _ _ (encModule_export 65 (by decide)) (by simp [Readable, NoNul]) (Or.inl rfl) (by decide)]
  decide +kernel

/-- … and meets the conditions of `C91_same_without_comments_partial`. -/
example : (∀ s ∈ ([⟨.exports [⟨[0x66], 0, 65⟩], 5⟩] : List WSection), OneLine s) ∧ Shows ⟨.exports [⟨[0x66], 0, 65⟩], 5⟩ ∧
    ∀ t ∈ items asCharacter (.exports [⟨[0x66], 0, 65⟩]), NoComment t.render := by
  refine ⟨?_, Or.inl (by simp [items]), ?_⟩
  · intro s hs
    rw [List.mem_singleton] at hs
    subst hs
    exact ⟨by decide, by simp⟩
  · intro t ht
    simp only [items, List.map_cons, List.map_nil, List.mem_singleton] at ht
    subst ht
    intro a b e
    have : (exportTree asCharacter ⟨[0x66], 0, 65⟩).render = "(export \"f\" (func A))".toList := by decide +kernel
    rw [this] at e
    have h2 : ';' ∈ "(export \"f\" (func A))".toList := by rw [e]; simp
    revert h2
    decide

/-- C91 fails: when the last section shows nothing, the module's closing parenthesis is in a comment; when a section has ten bytes,
part of its description is not. -/
theorem C91_negation :
    dump 1000 true (hdr ++ [3, 2, 1, 0]) =
      .ok ⟨[], ("(module\n  ;;;;;;;;;;;;;; (section (code FUNCTION) (size " ++ String.ofList [chr 2] ++ ")))\n").toList⟩ ∧
    dump 1000 false (hdr ++ [3, 2, 1, 0]) = .ok ⟨[], "(module)\n".toList⟩ ∧
    (∃ v p, dump 1000 true (hdr ++ [3, 2, 1, 0]) = .ok ⟨[], v⟩ ∧ dump 1000 false (hdr ++ [3, 2, 1, 0]) = .ok ⟨[], p⟩ ∧
      compact (uncomment false v) ≠ compact p) ∧
    (∃ v p, dump 1000 true (hdr ++ [7, 10, 1, 6, 0x61, 0x62, 0x63, 0x64, 0x65, 0x66, 0, 65]) = .ok ⟨[], v⟩ ∧
      dump 1000 false (hdr ++ [7, 10, 1, 6, 0x61, 0x62, 0x63, 0x64, 0x65, 0x66, 0, 65]) = .ok ⟨[], p⟩ ∧
      compact (uncomment false v) ≠ compact p) := by
  refine ⟨by decide +kernel, by decide +kernel,
    ⟨("(module\n  ;;;;;;;;;;;;;; (section (code FUNCTION) (size " ++ String.ofList [chr 2] ++ ")))\n").toList, "(module)\n".toList,
      by decide +kernel, by decide +kernel, by decide +kernel⟩,
    ⟨"(module\n  ;;;;;;;;;;;;;; (section (code EXPORT) (size \n))\n    (export \"abcdef\" (func A)))\n".toList,
      "(module\n  (export \"abcdef\" (func A)))\n".toList, by decide +kernel, by decide +kernel, by decide +kernel⟩⟩

end Ab.Wasm
