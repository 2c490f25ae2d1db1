import Verif.Spec.ReadBack
import Verif.Props.Disasm2
import Verif.Props.Tools
/-! C118: what the disassembler prints, the assembler reads. -/
namespace Ab.ReadBack
open Ab.Wasm (dump chr)
open Ab.Spec.Wasm (EncModule NotLongNegative WSection Content NoNul)
open Ab.Spec.Disasm Ab.Spec.Wast Ab.Spec.ReadBack
open Ab.Tools (Str Opened asmMain AsmEnd listing Plain)

/-! ### The text of the lexemes -/

theorem write_cons (l : Lexeme) (ls : List Lexeme) : write (l :: ls) = l.text ++ write ls := by simp [write]
theorem write_append (a b : List Lexeme) : write (a ++ b) = write a ++ write b := by simp [write]
theorem write_nil : write [] = [] := rfl

mutual
theorem write_lexemes : ∀ t : Tree, write (lexemes t) = t.render
  | .atom s => by rw [lexemes, write_cons, write_nil, Tree.render, List.append_nil]; rfl
  | .list l => by
    rw [lexemes, Tree.render, List.cons_append, write_cons, write_append, write_all l, write_cons, write_nil]
    simp [Lexeme.text]
theorem write_all : ∀ l : List Tree, write (lexemesAll l) = renderAll l
  | [] => by rw [lexemesAll, renderAll]; rfl
  | t :: l => by rw [lexemesAll, renderAll, write_append, write_lexemes t, write_rest l]
theorem write_rest : ∀ l : List Tree, write (lexemesRest l) = renderRest l
  | [] => by rw [lexemesRest, renderRest]; rfl
  | t :: l => by
    rw [lexemesRest, renderRest, List.cons_append, write_cons, write_append, write_lexemes t, write_rest l]
    simp [Lexeme.text]
end

theorem write_module (ts : List Tree) :
    write (moduleLexemes ts) = "(module".toList ++ ts.flatMap (fun t => "\n  ".toList ++ t.render) ++ ")\n".toList := by
  have h : ∀ ts : List Tree, write (ts.flatMap (fun t => Lexeme.space "\n  ".toList :: lexemes t)) =
      ts.flatMap (fun t => "\n  ".toList ++ t.render) := by
    intro ts
    induction ts with
    | nil => rfl
    | cons t ts ih =>
      rw [List.flatMap_cons, List.flatMap_cons, write_append, write_cons, write_lexemes, ih]
      rfl
  rw [moduleLexemes, write_append, write_append, h]
  rfl

/-! ### Lexemes that stand next to each other -/

theorem proper_append : ∀ {a b : List Lexeme}, Proper a → Proper b →
    (∀ x y, a.getLast? = some x → b.head? = some y → ¬ Joins x y) → Proper (a ++ b)
  | [], b, _, hb, _ => hb
  | [x], [], ha, _, _ => ha
  | [x], y :: b, ha, hb, h => ⟨ha, h x y rfl rfl, hb⟩
  | x :: x' :: a, b, ha, hb, h => by
    refine ⟨ha.1, ha.2.1, ?_⟩
    exact proper_append (a := x' :: a) ha.2.2 hb (fun u v hu hv => h u v (by rw [List.getLast?_cons_cons]; exact hu) hv)

/-- Lexemes that can stand after and before white space. -/
def Solid (a : List Lexeme) : Prop :=
  Proper a ∧ (∃ x, a.head? = some x ∧ ∀ s, x ≠ .space s) ∧ (∃ x, a.getLast? = some x ∧ ∀ s, x ≠ .space s)

theorem space_ok {c : List Char} {x : Lexeme} (h : ∀ s, x ≠ .space s) : ¬ Joins (.space c) x := by
  cases x with
  | space s => exact absurd rfl (h s)
  | _ => exact id

theorem space_ok' {c : List Char} {x : Lexeme} (h : ∀ s, x ≠ .space s) : ¬ Joins x (.space c) := by
  cases x with
  | space s => exact absurd rfl (h s)
  | _ => exact id

theorem rparen_ok {x : Lexeme} : ¬ Joins x .rparen := by cases x <;> exact id
theorem lparen_ok {x : Lexeme} : ¬ Joins .lparen x := by cases x <;> exact id

theorem getLast?_append_cons {α : Type} (a : List α) (x : α) (b : List α) : (a ++ x :: b).getLast? = (x :: b).getLast? := by
  rw [List.getLast?_append]
  simp [List.getLast?_cons]

mutual
theorem solid_lexemes : ∀ t : Tree, Wordy t → Solid (lexemes t)
  | .atom s, h => by
    rw [lexemes]
    rw [Wordy] at h
    exact ⟨h, ⟨_, rfl, fun _ => nofun⟩, ⟨_, rfl, fun _ => nofun⟩⟩
  | .list l, h => by
    rw [Wordy] at h
    rw [lexemes]
    have hp := proper_all l h
    refine ⟨?_, ⟨_, rfl, fun _ => nofun⟩, ⟨.rparen, by rw [getLast?_append_cons]; rfl, fun _ => nofun⟩⟩
    exact proper_append (a := .lparen :: lexemesAll l)
      (proper_append (a := [Lexeme.lparen]) trivial hp (fun x y hx _ => by
        injection hx with hx; subst hx; exact lparen_ok))
      (b := [.rparen]) trivial
      (fun x y _ hy => by injection hy with hy; subst hy; exact rparen_ok)
theorem proper_all : ∀ l : List Tree, WordyAll l → Proper (lexemesAll l)
  | [], _ => by rw [lexemesAll]; exact trivial
  | t :: l, h => by
    rw [WordyAll] at h
    rw [lexemesAll]
    obtain ⟨hp, _, x, hx, hs⟩ := solid_lexemes t h.1
    obtain ⟨hr, hh⟩ := proper_rest l h.2
    refine proper_append hp hr (fun u v hu hv => ?_)
    rw [hx] at hu; injection hu with hu; subst hu
    rw [hh v hv]; exact space_ok' hs
theorem proper_rest : ∀ l : List Tree, WordyAll l →
    Proper (lexemesRest l) ∧ ∀ v, (lexemesRest l).head? = some v → v = .space [' ']
  | [], _ => by rw [lexemesRest]; exact ⟨trivial, fun v h => by cases h⟩
  | t :: l, h => by
    rw [WordyAll] at h
    rw [lexemesRest]
    obtain ⟨hp, ⟨y, hy, hs'⟩, x, hx, hs⟩ := solid_lexemes t h.1
    obtain ⟨hr, hh⟩ := proper_rest l h.2
    refine ⟨?_, fun v hv => by injection hv with hv; exact hv.symm⟩
    have h1 : Proper (.space [' '] :: lexemes t) :=
      proper_append (a := [Lexeme.space [' ']]) ⟨by simp, fun c hc => by simp at hc; subst hc; exact Or.inl rfl⟩ hp
        (fun u v hu hv => by
          injection hu with hu; subst hu
          rw [hy] at hv; injection hv with hv; subst hv
          exact space_ok hs')
    refine proper_append h1 hr (fun u v hu hv => ?_)
    have : (Lexeme.space [' '] :: lexemes t).getLast? = (lexemes t).getLast? := by
      cases hl : lexemes t with
      | nil => rw [hl] at hy; cases hy
      | cons a b => rw [List.getLast?_cons_cons]
    rw [this, hx] at hu; injection hu with hu; subst hu
    rw [hh v hv]; exact space_ok' hs
end

theorem proper_module (ts : List Tree) (h : ∀ t ∈ ts, Wordy t) : Proper (moduleLexemes ts) := by
  have hb : ∀ ts : List Tree, (∀ t ∈ ts, Wordy t) →
      Proper (ts.flatMap (fun t => Lexeme.space "\n  ".toList :: lexemes t) ++ [.rparen, .space ['\n']]) ∧
      ∀ v, (ts.flatMap (fun t => Lexeme.space "\n  ".toList :: lexemes t) ++ [Lexeme.rparen, .space ['\n']]).head? = some v →
        v = .rparen ∨ ∃ s, v = .space s := by
    intro ts
    induction ts with
    | nil =>
      intro _
      refine ⟨⟨trivial, id, by simp, fun c hc => by simp at hc; subst hc; exact Or.inr ⟨by decide, by decide⟩⟩, fun v hv => ?_⟩
      injection hv with hv; exact Or.inl hv.symm
    | cons t ts ih =>
      intro h
      obtain ⟨hp, hh⟩ := ih (fun u hu => h u (by simp [hu]))
      obtain ⟨hq, ⟨y, hy, hs'⟩, x, hx, hs⟩ := solid_lexemes t (h t (by simp))
      refine ⟨?_, fun v hv => by injection hv with hv; exact Or.inr ⟨_, hv.symm⟩⟩
      rw [List.flatMap_cons, List.append_assoc]
      have h1 : Proper (.space "\n  ".toList :: lexemes t) :=
        proper_append (a := [Lexeme.space "\n  ".toList]) ⟨by decide, fun c hc => by
          have hc' : c = '\n' ∨ c = ' ' ∨ c = ' ' := by simpa using hc
          rcases hc' with rfl | rfl | rfl
          · exact Or.inr ⟨by decide, by decide⟩
          · exact Or.inl rfl
          · exact Or.inl rfl⟩ hq
          (fun u v hu hv => by
            injection hu with hu; subst hu
            rw [hy] at hv; injection hv with hv; subst hv
            exact space_ok hs')
      refine proper_append h1 hp (fun u v hu hv => ?_)
      have : (Lexeme.space "\n  ".toList :: lexemes t).getLast? = (lexemes t).getLast? := by
        cases hl : lexemes t with
        | nil => rw [hl] at hy; cases hy
        | cons a b => rw [List.getLast?_cons_cons]
      rw [this, hx] at hu; injection hu with hu; subst hu
      rcases hh v hv with rfl | ⟨s, rfl⟩
      · exact rparen_ok
      · exact space_ok' hs
  obtain ⟨hp, hh⟩ := hb ts h
  unfold moduleLexemes
  rw [List.append_assoc]
  refine proper_append ⟨trivial, lparen_ok, by decide, ?_⟩ hp (fun u v hu hv => ?_)
  · intro c hc
    refine (Wast.allowed_iff c).1 ?_
    have hc' : c ∈ ['m', 'o', 'd', 'u', 'l', 'e'] := by simpa using hc
    revert c
    decide
  · injection hu with hu
    subst hu
    rcases hh v hv with rfl | ⟨s, rfl⟩ <;> exact id

/-! ### What texts cannot contain -/

/-- The characters a text of lexemes can contain. -/
theorem write_chars {ls : List Lexeme} (h : Proper ls) : ∀ c ∈ write ls, c = '(' ∨ c = ')' ∨ c = '$' ∨ WordChar c ∨ Space c := by
  have hv : ∀ l : Lexeme, l.Valid → ∀ c ∈ l.text, c = '(' ∨ c = ')' ∨ c = '$' ∨ WordChar c ∨ Space c := by
    intro l hl c hc
    cases l with
    | lparen => simp [Lexeme.text] at hc; exact Or.inl hc
    | rparen => simp [Lexeme.text] at hc; exact Or.inr (Or.inl hc)
    | word s => exact Or.inr (Or.inr (Or.inr (Or.inl (hl.2 c hc))))
    | ident s =>
      simp only [Lexeme.text, List.mem_cons] at hc
      rcases hc with hc | hc
      · exact Or.inr (Or.inr (Or.inl hc))
      · exact Or.inr (Or.inr (Or.inr (Or.inl (hl.2 c hc))))
    | space s => exact Or.inr (Or.inr (Or.inr (Or.inr (hl.2 c hc))))
  induction ls with
  | nil => intro c hc; cases hc
  | cons l ls ih =>
    intro c hc
    rw [write_cons, List.mem_append] at hc
    cases ls with
    | nil =>
      rcases hc with hc | hc
      · exact hv l h c hc
      · cases hc
    | cons l' ls =>
      rcases hc with hc | hc
      · exact hv l h.1 c hc
      · exact ih h.2.2 c hc

theorem not_written {ls : List Lexeme} (h : Proper ls) {c : Char} (hc : c = '"' ∨ c = ';') : c ∉ write ls := by
  intro hm
  rcases write_chars h c hm with e | e | e | e | e
  · rcases hc with rfl | rfl <;> cases e
  · rcases hc with rfl | rfl <;> cases e
  · rcases hc with rfl | rfl <;> cases e
  · have := (Wast.allowed_iff c).2 e
    rcases hc with rfl | rfl <;> revert this <;> decide
  · have := (Wast.isSpace_iff c).2 e
    rcases hc with rfl | rfl <;> revert this <;> decide

/-- A file with a quote or a semicolon is not read to its end. -/
theorem stops (os : Str → Opened) (a b : Str) (t : List Char) (ha : Plain a) (hr : Tools.Readable os a t) (hn : t.length < 2147483647)
    {c : Char} (hc : c = '"' ∨ c = ';') (hm : c ∈ t) :
    ∃ ls rest, t = write ls ++ rest ∧ rest ≠ [] ∧ Proper ls ∧ asmMain os [a, b] = .ok (.done (listing ls)) ∧
      (AsmEnd.done (listing ls)).status = 0 := by
  obtain ⟨ls, rest, e, hp, hu, h1, h2⟩ := Tools.C76_listing_partial os a b t ha hr hn
  refine ⟨ls, rest, e, ?_, hp, h1, h2⟩
  intro hnil
  rw [hnil, List.append_nil] at e
  rw [e] at hm
  exact not_written hp hc hm

theorem render_mem_list {t : Tree} {l : List Tree} (h : t ∈ l) {c : Char} (hc : c ∈ t.render) : c ∈ (Tree.list l).render := by
  have hrest : ∀ l : List Tree, t ∈ l → c ∈ renderRest l := by
    intro l
    induction l with
    | nil => intro h; cases h
    | cons u l ih =>
      intro h
      rw [renderRest]
      rcases List.mem_cons.1 h with rfl | h
      · simp [hc]
      · simp [ih h]
  rw [Tree.render]
  cases l with
  | nil => cases h
  | cons u l =>
    rw [renderAll]
    rcases List.mem_cons.1 h with rfl | h
    · simp [hc]
    · simp [hrest l h]

theorem quote_atom (s : List Char) : '"' ∈ (Tree.atom ('"' :: s ++ ['"'])).render := by rw [Tree.render]; simp

/-- A section that quotes shows a quote. -/
theorem quote_items {s : Content} (h : Quotes s) : ∃ t ∈ items asCharacter s, '"' ∈ t.render := by
  cases s with
  | imports l =>
    cases l with
    | nil => exact absurd rfl h
    | cons e l => exact ⟨_, by rw [items, List.map_cons]; exact List.mem_cons_self, render_mem_list (t := name e.module) (by simp) (quote_atom _)⟩
  | exports l =>
    cases l with
    | nil => exact absurd rfl h
    | cons e l => exact ⟨_, by rw [items, List.map_cons]; exact List.mem_cons_self, render_mem_list (t := name e.field) (by simp) (quote_atom _)⟩
  | data l =>
    cases l with
    | nil => exact absurd rfl h
    | cons e l =>
      exact ⟨_, by rw [items, List.map_cons]; exact List.mem_cons_self,
        render_mem_list (t := .atom ('"' :: e.data.flatMap dataByte ++ ['"'])) (by simp) (quote_atom _)⟩
  | _ => exact absurd h id

theorem wordy_valueType (t : Byte) : Wordy (valueType t) := by
  have h : ∀ t : Byte, (match valueType t with | .atom s => !s.isEmpty && s.all Wast.allowed | _ => false) = true := by decide +kernel
  have := h t
  unfold valueType at this ⊢
  unfold word at this ⊢
  rw [Wordy]
  simp only [Bool.and_eq_true, Bool.not_eq_true', List.all_eq_true] at this
  refine ⟨?_, fun c hc => (Wast.allowed_iff c).1 (this.2 c hc)⟩
  intro hn
  rw [hn] at this
  exact absurd this.1 (by decide)

theorem wordy_word {s : String} (h : (!s.toList.isEmpty && s.toList.all Wast.allowed) = true) : Wordy (word s) := by
  unfold word
  rw [Wordy]
  simp only [Bool.and_eq_true, Bool.not_eq_true', List.all_eq_true] at h
  refine ⟨?_, fun c hc => (Wast.allowed_iff c).1 (h.2 c hc)⟩
  intro hn
  rw [hn] at h
  exact absurd h.1 (by decide)

theorem wordyAll_iff : ∀ {l : List Tree}, (∀ t ∈ l, Wordy t) → WordyAll l
  | [], _ => by rw [WordyAll]; exact trivial
  | t :: l, h => by rw [WordyAll]; exact ⟨h t (by simp), wordyAll_iff (fun u hu => h u (by simp [hu]))⟩

theorem wordy_list {l : List Tree} (h : ∀ t ∈ l, Wordy t) : Wordy (.list l) := by rw [Wordy]; exact wordyAll_iff h

theorem wordy_funcType (t : Ab.Wasm.FunctionType) : Wordy (funcTypeTree t) := by
  unfold funcTypeTree
  refine wordy_list (fun u hu => ?_)
  rw [List.mem_append, List.mem_append] at hu
  rcases hu with (hu | hu) | hu
  · rw [List.mem_singleton] at hu; subst hu; exact wordy_word (by decide)
  · split at hu
    · cases hu
    · rw [List.mem_singleton] at hu; subst hu
      refine wordy_list (fun v hv => ?_)
      rcases List.mem_cons.1 hv with rfl | hv
      · exact wordy_word (by decide)
      · obtain ⟨x, _, rfl⟩ := List.mem_map.1 hv; exact wordy_valueType x
  · split at hu
    · rw [List.mem_singleton] at hu; subst hu
      refine wordy_list (fun v hv => ?_)
      rcases List.mem_cons.1 hv with rfl | hv
      · exact wordy_word (by decide)
      · rw [List.mem_singleton] at hv; subst hv; exact wordy_valueType _
    · cases hu

theorem onlyTypes_wordy {s : Content} (h : OnlyTypes s) : ∀ t ∈ items asCharacter s, Wordy t := by
  intro t ht
  cases s with
  | types l =>
    obtain ⟨x, _, rfl⟩ := List.mem_map.1 ht
    exact wordy_funcType x
  | imports l => cases h; cases ht
  | globals l => cases h; cases ht
  | exports l => cases h; cases ht
  | elements l => cases h; cases ht
  | data l => cases h; cases ht
  | _ => cases ht

/-! ### C118 -/

/-- The assembler reads the file to its end: what it prints is the listing of lexemes that make up the whole file. -/
def ReadToTheEnd (os : Str → Opened) (a b : Str) (t : List Char) : Prop :=
  ∃ ls, Proper ls ∧ t = write ls ∧ asmMain os [a, b] = .ok (.done (listing ls))

/-- C118 as stated, for the modules the disassembler can print (C66): a file with the disassembly of a module is read to its end. -/
def C118_full : Prop :=
  ∀ (mem : Nat) (bytes : List Byte) (m : List WSection), EncModule NotLongNegative bytes m →
    (∀ s ∈ m, Ab.Spec.Wasm.Readable (fun _ _ => False) s.content) → 8 * bytes.length ≤ mem →
    ∀ (c t : List Char), dump mem false bytes = .ok ⟨c, t⟩ →
      ∀ (os : Str → Opened) (a b : Str), Plain a → Tools.Readable os a t → t.length < 2147483647 → ReadToTheEnd os a b t

/-- C118, for every module whose entries show nothing but words and parentheses: the disassembler prints a text, and `ab-asm` on a
file with that text lists exactly the words and parentheses of the module's entries, in order, with nothing left over. Missing:
modules that show quoted names, comments, or a number whose character is not one of a word. -/
theorem C118_words_partial (mem : Nat) (bytes : List Byte) (m last : List WSection) (h : EncModule NotLongNegative bytes (m ++ last))
    (hm : ∀ s ∈ m, Ab.Spec.Wasm.Readable (fun _ _ => False) s.content)
    (hl : last = [] ∨ ∃ name payload len, last = [⟨.custom name payload, len⟩] ∧ NoNul name)
    (hmem : 8 * bytes.length ≤ mem) (hw : ∀ s ∈ m ++ last, ∀ t ∈ items asCharacter s.content, Wordy t) :
    ∃ t, dump mem false bytes = .ok ⟨[], t⟩ ∧ ∀ (os : Str → Opened) (a b : Str), Plain a → Tools.Readable os a t →
      t.length < 2147483647 → ReadToTheEnd os a b t ∧
      asmMain os [a, b] = .ok (.done (listing (moduleLexemes ((m ++ last).flatMap fun s => items asCharacter s.content)))) := by
  refine ⟨_, Ab.Wasm.C66_text_partial mem bytes m last h hm hl hmem, fun os a b ha hr hn => ?_⟩
  have hp := proper_module ((m ++ last).flatMap fun s => items asCharacter s.content) (fun t ht => by
    obtain ⟨s, hs, ht⟩ := List.mem_flatMap.1 ht
    exact hw s hs t ht)
  have e : text asCharacter (m ++ last) = write (moduleLexemes ((m ++ last).flatMap fun s => items asCharacter s.content)) :=
    (write_module _).symm
  rw [e] at hr hn ⊢
  have := Tools.C76_complete_files_partial os a b _ ha hr hn hp
  exact ⟨⟨_, hp, rfl, this⟩, this⟩

/-- … in particular for every module that shows function types only. -/
theorem C118_types_partial (mem : Nat) (bytes : List Byte) (m : List WSection) (h : EncModule NotLongNegative bytes m)
    (hm : ∀ s ∈ m, Ab.Spec.Wasm.Readable (fun _ _ => False) s.content) (hmem : 8 * bytes.length ≤ mem)
    (ht : ∀ s ∈ m, OnlyTypes s.content) :
    ∃ t, dump mem false bytes = .ok ⟨[], t⟩ ∧ ∀ (os : Str → Opened) (a b : Str), Plain a → Tools.Readable os a t →
      t.length < 2147483647 → ReadToTheEnd os a b t := by
  obtain ⟨t, h1, h2⟩ := C118_words_partial mem bytes m [] (by rw [List.append_nil]; exact h) hm (Or.inl rfl) hmem
    (fun s hs => onlyTypes_wordy (ht s (by rw [List.append_nil] at hs; exact hs)))
  exact ⟨t, h1, fun os a b ha hr hn => (h2 os a b ha hr hn).1⟩

/-- C118 fails for every module with an import, an export or a data segment: `ab-asm` stops inside the text, lists what came before,
and ends with status 0. -/
theorem C118_quotes_negation (mem : Nat) (bytes : List Byte) (m last : List WSection) (h : EncModule NotLongNegative bytes (m ++ last))
    (hm : ∀ s ∈ m, Ab.Spec.Wasm.Readable (fun _ _ => False) s.content)
    (hl : last = [] ∨ ∃ name payload len, last = [⟨.custom name payload, len⟩] ∧ NoNul name)
    (hmem : 8 * bytes.length ≤ mem) (hq : ∃ s ∈ m, Quotes s.content) :
    ∃ t, dump mem false bytes = .ok ⟨[], t⟩ ∧ ∀ (os : Str → Opened) (a b : Str), Plain a → Tools.Readable os a t →
      t.length < 2147483647 → ∃ ls rest, t = write ls ++ rest ∧ rest ≠ [] ∧ Proper ls ∧
        asmMain os [a, b] = .ok (.done (listing ls)) ∧ (AsmEnd.done (listing ls)).status = 0 := by
  refine ⟨_, Ab.Wasm.C66_text_partial mem bytes m last h hm hl hmem, fun os a b ha hr hn => ?_⟩
  refine stops os a b _ ha hr hn (Or.inl rfl) ?_
  obtain ⟨s, hs, hq⟩ := hq
  obtain ⟨t, ht, hc⟩ := quote_items hq
  unfold text
  rw [List.mem_append, List.mem_append]
  refine Or.inl (Or.inr ?_)
  rw [List.mem_flatMap]
  refine ⟨t, ?_, by rw [List.mem_append]; exact Or.inr hc⟩
  rw [List.mem_flatMap]
  exact ⟨s, by simp [hs], ht⟩

/-- And for every module with a section when the disassembly is verbose. -/
theorem C118_verbose_negation (mem : Nat) (bytes : List Byte) (m last : List WSection) (h : EncModule NotLongNegative bytes (m ++ last))
    (hm : ∀ s ∈ m, Ab.Spec.Wasm.Readable (fun _ _ => False) s.content)
    (hl : last = [] ∨ ∃ name payload len, last = [⟨.custom name payload, len⟩] ∧ NoNul name)
    (hmem : 8 * bytes.length ≤ mem) (hq : m ++ last ≠ []) :
    ∃ t, dump mem true bytes = .ok ⟨[], t⟩ ∧ ∀ (os : Str → Opened) (a b : Str), Plain a → Tools.Readable os a t →
      t.length < 2147483647 → ∃ ls rest, t = write ls ++ rest ∧ rest ≠ [] ∧ Proper ls ∧
        asmMain os [a, b] = .ok (.done (listing ls)) ∧ (AsmEnd.done (listing ls)).status = 0 := by
  refine ⟨_, Ab.Wasm.C91_text_partial mem bytes m last h hm hl hmem, fun os a b ha hr hn => ?_⟩
  refine stops os a b _ ha hr hn (Or.inr rfl) ?_
  obtain ⟨s, hs⟩ := List.exists_mem_of_ne_nil _ hq
  unfold verboseText
  rw [List.mem_append, List.mem_append, List.mem_append]
  refine Or.inl (Or.inl (Or.inr ?_))
  rw [List.mem_flatMap]
  refine ⟨s, hs, ?_⟩
  unfold verboseSection lineAt
  simp

/-- C118 as stated fails: the module that exports function 65 as `f`. -/
theorem C118_negation : ¬ C118_full := by
  intro h
  have henc := Ab.Wasm.encModule_export 65 (by decide)
  have hm : ∀ s ∈ [(⟨.exports [⟨[0x66], 0, 65⟩], 5⟩ : WSection)], Ab.Spec.Wasm.Readable (fun _ _ => False) s.content := by
    simp [Ab.Spec.Wasm.Readable, NoNul]
  obtain ⟨t, ht, hs⟩ := C118_quotes_negation 1000 _ _ [] henc hm (Or.inl rfl) (by decide) ⟨_, List.mem_singleton.2 rfl, by simp [Quotes]⟩
  have e : t = "(module\n  (export \"f\" (func A)))\n".toList := by
    have h2 : dump 1000 false (Ab.Wasm.hdr ++ [7, 5, 1, 1, 0x66, 0, 65]) = .ok ⟨[], "(module\n  (export \"f\" (func A)))\n".toList⟩ := by
      decide +kernel
    have := ht.symm.trans h2
    injection this with this
    injection this
  have ha : Plain ['a'] := by intro c t e; injection e with e; rw [← e]; decide
  obtain ⟨ls, hp, hw, _⟩ := h 1000 _ _ (by have := henc; rw [List.append_nil] at this; exact this) hm (by decide) [] t ht
    (fun _ => .file 3 t true true) ['a'] ['b'] ha ⟨⟨3, rfl, by decide⟩, by rw [e]; decide⟩ (by rw [e]; decide)
  have hm2 : '"' ∈ t := by rw [e]; decide
  rw [hw] at hm2
  exact not_written hp (Or.inl rfl) hm2

/-- A module with one function type, `(i32) -> i32`, meets the hypotheses of `C118_types_partial`. -/
example : EncModule NotLongNegative (Ab.Wasm.hdr ++ [1, 6, 1, 0x60, 1, 0x7f, 1, 0x7f]) [⟨.types [⟨[0x7f], true, 0x7f⟩], 6⟩] ∧
    dump 1000 false (Ab.Wasm.hdr ++ [1, 6, 1, 0x60, 1, 0x7f, 1, 0x7f]) =
      .ok ⟨[], "(module\n  (func (param i32) (result i32)))\n".toList⟩ ∧
    OnlyTypes (.types [⟨[0x7f], true, 0x7f⟩]) := by
  refine ⟨⟨_, rfl, ?_⟩, by decide +kernel, trivial⟩
  refine .cons (bs := [1, 6, 1, 0x60, 1, 0x7f, 1, 0x7f]) ⟨[6], [1, 0x60, 1, 0x7f, 1, 0x7f], rfl, Ab.Wasm.encU32_digit 6 (by decide), rfl, ?_⟩ .nil
  exact Ab.Wasm.encVec_cons (.cons (bs := [0x60, 1, 0x7f, 1, 0x7f]) (.value (bs := [1, 0x7f])
    (Ab.Wasm.encVec_bytes (s := [0x7f]) 1 rfl (by decide))) .nil) 1 rfl (by decide)

end Ab.ReadBack
