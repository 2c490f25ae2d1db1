import Verif.Model.Sexpr
/-! C46: S-expression output. -/
namespace Ab.Sexpr

/-! ### Specification: reading S-expressions -/

/-- A token of S-expression text. -/
inductive Tok | lp | rp | word (s : List Char)
deriving Repr, DecidableEq

/-- An ordinary tokenizer: parentheses stand for themselves, white space separates words. The state is what
has been read and the word being read. -/
structure Lex where
  done : List Tok
  cur  : List Char

def Lex.flush (s : Lex) : List Tok := if s.cur = [] then s.done else s.done ++ [.word s.cur]

def Lex.char (s : Lex) (c : Char) : Lex :=
  if c = ' ' ∨ c = '\n' then ⟨s.flush, []⟩
  else if c = '(' then ⟨s.flush ++ [.lp], []⟩
  else if c = ')' then ⟨s.flush ++ [.rp], []⟩
  else ⟨s.done, s.cur ++ [c]⟩

def lex (t : List Char) : Lex := t.foldl Lex.char ⟨[], []⟩

def tokens (t : List Char) : List Tok := (lex t).flush

/-- Text that is a word: not empty, no white space, no parentheses. -/
def Word (s : List Char) : Prop := s ≠ [] ∧ ∀ c ∈ s, c ≠ ' ' ∧ c ≠ '\n' ∧ c ≠ '(' ∧ c ≠ ')'

/-- The tokens a user asks for. -/
def wanted : List Ev → List Tok
  | [] => []
  | .start :: l => .lp :: wanted l
  | .stop :: l => .rp :: wanted l
  | .text s :: l => .word s :: wanted l
  | .fresh :: l => wanted l
  | .indent :: l => wanted l
  | .dedent :: l => wanted l

/-- Well-nested uses, with the greatest number of lists inside each other. -/
inductive Nested : Nat → List Ev → Prop
  | nil : Nested 0 []
  | text {h l} (s) : Nested h l → Nested h (.text s :: l)
  | fresh {h l} : Nested h l → Nested h (.fresh :: l)
  | list {h1 h2 l1 l2} : Nested h1 l1 → Nested h2 l2 → Nested (max (h1 + 1) h2) (.start :: l1 ++ .stop :: l2)

/-- Balanced parentheses. -/
inductive Balanced : List Char → Prop
  | nil : Balanced []
  | wrap {a b} : Balanced a → Balanced b → Balanced ('(' :: a ++ ')' :: b)

/-- The parentheses of a text. -/
def parens (t : List Char) : List Char := t.filter (fun c => c = '(' ∨ c = ')')

/-! ### Proofs -/

theorem lex_append (a b : List Char) : lex (a ++ b) = b.foldl Lex.char (lex a) := by
  unfold lex; rw [List.foldl_append]

theorem lex_spaces (s : Lex) (h : s.cur = []) (d : Nat) : (indentation d).foldl Lex.char s = s := by
  induction d with
  | zero => rfl
  | succ d ih =>
    rw [indentation, List.foldl_append, ih]
    obtain ⟨dn, cu⟩ := s
    subst h
    rfl

theorem lex_word (s : Lex) (h : s.cur = []) {w : List Char} (hw : Word w) : w.foldl Lex.char s = ⟨s.done, w⟩ := by
  have key : ∀ (w : List Char) (s : Lex), (∀ c ∈ w, c ≠ ' ' ∧ c ≠ '\n' ∧ c ≠ '(' ∧ c ≠ ')') →
      w.foldl Lex.char s = ⟨s.done, s.cur ++ w⟩ := by
    intro w
    induction w with
    | nil => intro s _; simp
    | cons c w ih =>
      intro s hw
      obtain ⟨h1, h2, h3, h4⟩ := hw c (by simp)
      rw [List.foldl_cons, ih _ (fun x hx => hw x (by simp [hx]))]
      simp [Lex.char, h1, h2, h3, h4]
  rw [key w s hw.2, h]; rfl

/-- The buffer so far lexes to `T`, and no word is open unless the formatter will put a space. -/
def Good (f : Formatter) (T : List Tok) : Prop :=
  tokens f.buffer = T ∧ (f.fresh = true ∨ f.needsSpacing = false → (lex f.buffer).cur = [])

theorem flush_nil (s : Lex) (h : s.cur = []) : s.flush = s.done := by unfold Lex.flush; rw [if_pos h]

theorem spacing_good {f : Formatter} {T : List Tok} (h : Good f T) :
    lex f.spacing.buffer = ⟨T, []⟩ := by
  obtain ⟨h1, h2⟩ := h
  unfold tokens at h1
  unfold Formatter.spacing
  cases hf : f.fresh with
  | true =>
    simp only [if_true]
    rw [lex_append, lex_spaces _ (h2 (Or.inl hf))]
    have h3 := h2 (Or.inl hf)
    rw [flush_nil _ h3] at h1
    rw [← h1, ← h3]
  | false =>
    cases hn : f.needsSpacing with
    | true =>
      simp only [if_true, Bool.false_eq_true, if_false]
      rw [lex_append]
      simp [Lex.char, h1]
    | false =>
      simp only [Bool.false_eq_true, if_false]
      have h3 := h2 (Or.inr hn)
      rw [flush_nil _ h3] at h1
      rw [← h1, ← h3]

theorem put_good {f : Formatter} {T : List Tok} (h : Good f T) (e : Ev) (he : ∀ s, e = .text s → Word s) :
    Good (f.put e) (T ++ wanted [e]) := by
  cases e with
  | start =>
    refine ⟨?_, fun _ => ?_⟩
    · show tokens (f.spacing.buffer ++ ['(']) = _
      unfold tokens
      rw [lex_append, spacing_good h]; simp [Lex.char, Lex.flush, wanted]
    · show (lex (f.spacing.buffer ++ ['('])).cur = _
      rw [lex_append, spacing_good h]; simp [Lex.char]
  | stop =>
    have h1 : lex (f.buffer ++ [')']) = ⟨T ++ [.rp], []⟩ := by
      rw [lex_append]
      have := h.1
      unfold tokens at this
      simp [Lex.char, this]
    refine ⟨?_, fun _ => ?_⟩
    · show tokens (f.buffer ++ [')']) = _
      unfold tokens; rw [h1]; simp [Lex.flush, wanted]
    · show (lex (f.buffer ++ [')'])).cur = _
      rw [h1]
  | text s =>
    have hw := he s rfl
    refine ⟨?_, fun hc => ?_⟩
    · show tokens (f.spacing.buffer ++ s) = _
      unfold tokens
      rw [lex_append, spacing_good h, lex_word _ rfl hw]
      simp [Lex.flush, wanted, hw.1]
    · rcases hc with hc | hc <;> cases hc
  | fresh =>
    show Good f.freshen (T ++ [])
    rw [List.append_nil]
    unfold Formatter.freshen
    cases hf : f.fresh with
    | true => simp only [if_true]; exact h
    | false =>
      have h1 : lex (f.buffer ++ ['\n']) = ⟨T, []⟩ := by
        rw [lex_append]
        have := h.1
        unfold tokens at this
        simp [Lex.char, this]
      refine ⟨?_, fun _ => ?_⟩
      · show tokens (f.buffer ++ ['\n']) = _
        unfold tokens; rw [h1]; rfl
      · show (lex (f.buffer ++ ['\n'])).cur = _
        rw [h1]
  | indent => show Good f.indent (T ++ []); rw [List.append_nil]; exact h
  | dedent => show Good f.dedent (T ++ []); rw [List.append_nil]; exact h

theorem wanted_append (a b : List Ev) : wanted (a ++ b) = wanted a ++ wanted b := by
  induction a with
  | nil => rfl
  | cons e a ih => cases e <;> simp [wanted, ih]

theorem puts_good {l : List Ev} {f : Formatter} {T : List Tok} (h : Good f T) (hl : ∀ s, .text s ∈ l → Word s) :
    Good (f.puts l) (T ++ wanted l) := by
  induction l generalizing f T with
  | nil => rw [wanted, List.append_nil]; exact h
  | cons e l ih =>
    have h1 := put_good h e (fun s hs => hl s (by simp [hs]))
    have := ih h1 (fun s hs => hl s (by simp [hs]))
    rw [List.append_assoc, ← wanted_append] at this
    exact this

theorem new_good : Good Formatter.new [] := ⟨rfl, fun _ => rfl⟩

/-- C46, contents: whatever sequence of starts, ends, words and line breaks is sent to a new formatter,
reading its output gives exactly the parentheses and words sent, in order. -/
theorem C46_tokens (l : List Ev) (hl : ∀ s, .text s ∈ l → Word s) :
    tokens (Formatter.new.puts l).buffer = wanted l := by
  have := (puts_good (l := l) new_good hl).1
  simpa using this

/-! Parentheses. -/

theorem parens_append (a b : List Char) : parens (a ++ b) = parens a ++ parens b := List.filter_append ..

theorem parens_indentation (d : Nat) : parens (indentation d) = [] := by
  induction d with
  | zero => rfl
  | succ d ih => rw [indentation, parens_append, ih]; rfl

theorem parens_word {s : List Char} (h : Word s) : parens s = [] := by
  unfold parens
  rw [List.filter_eq_nil_iff]
  intro c hc
  obtain ⟨_, _, h3, h4⟩ := h.2 c hc
  simp [h3, h4]

theorem parens_spacing (f : Formatter) : parens f.spacing.buffer = parens f.buffer := by
  unfold Formatter.spacing
  simp only
  split
  · rw [parens_append, parens_indentation, List.append_nil]
  · split
    · rw [parens_append]; show _ ++ [] = _; rw [List.append_nil]
    · rfl

/-- The parentheses sent. -/
def sent : List Ev → List Char
  | [] => []
  | .start :: l => '(' :: sent l
  | .stop :: l => ')' :: sent l
  | .text _ :: l => sent l
  | .fresh :: l => sent l
  | .indent :: l => sent l
  | .dedent :: l => sent l

theorem sent_append (a b : List Ev) : sent (a ++ b) = sent a ++ sent b := by
  induction a with
  | nil => rfl
  | cons e a ih => cases e <;> simp [sent, ih]

theorem parens_puts {l : List Ev} (f : Formatter) (hl : ∀ s, .text s ∈ l → Word s) :
    parens (f.puts l).buffer = parens f.buffer ++ sent l := by
  induction l generalizing f with
  | nil => rw [sent, List.append_nil]; rfl
  | cons e l ih =>
    show parens ((f.put e).puts l).buffer = _
    rw [ih _ (fun s hs => hl s (by simp [hs]))]
    have : parens (f.put e).buffer = parens f.buffer ++ sent [e] := by
      cases e with
      | start => show parens (f.spacing.buffer ++ ['(']) = _; rw [parens_append, parens_spacing]; rfl
      | stop => show parens (f.buffer ++ [')']) = _; rw [parens_append]; rfl
      | text s =>
        show parens (f.spacing.buffer ++ s) = _
        rw [parens_append, parens_spacing, parens_word (hl s (by simp))]; rfl
      | fresh =>
        show parens f.freshen.buffer = _ ++ []
        rw [List.append_nil]
        unfold Formatter.freshen
        split
        · rfl
        · show parens (f.buffer ++ ['\n']) = _; rw [parens_append]; show _ ++ [] = _; rw [List.append_nil]
      | indent => show parens f.buffer = _ ++ []; rw [List.append_nil]
      | dedent => show parens f.buffer = _ ++ []; rw [List.append_nil]
    rw [this, List.append_assoc, ← sent_append]; rfl

theorem sent_balanced {h : Nat} {l : List Ev} (hn : Nested h l) : Balanced (sent l) := by
  induction hn with
  | nil => exact .nil
  | text s _ ih => exact ih
  | fresh _ ih => exact ih
  | list _ _ ih1 ih2 =>
    rename_i l1 l2 _ _
    have : sent (.start :: l1 ++ .stop :: l2) = '(' :: sent l1 ++ ')' :: sent l2 := by
      rw [sent_append]; rfl
    rw [this]
    exact .wrap ih1 ih2

/-- C46, balance: the output of any well-nested use has balanced parentheses. -/
theorem C46_balanced (h : Nat) (l : List Ev) (hn : Nested h l) (hl : ∀ s, .text s ∈ l → Word s) :
    Balanced (parens (Formatter.new.puts l).buffer) := by
  rw [parens_puts _ hl]
  exact sent_balanced hn

/-! Indentation. -/

theorem puts_append (f : Formatter) (a b : List Ev) : f.puts (a ++ b) = (f.puts a).puts b := by
  unfold Formatter.puts; rw [List.foldl_append]

theorem spacing_depth (f : Formatter) : f.spacing.depth = f.depth := rfl

theorem freshen_depth (f : Formatter) : f.freshen.depth = f.depth := by
  unfold Formatter.freshen; split <;> rfl

/-- C46, indentation, exactly: after a well-nested use that has at most `h` lists inside each other, begun at
indentation level `d` (at most 10), the level is `min d (10 - h)`. So it returns to its initial value whenever
`d + h ≤ 10`, and in particular from level 0. Missing: deeper nesting. -/
theorem C46_indentation_partial (h : Nat) (l : List Ev) (hn : Nested h l) (f : Formatter) (hf : f.depth ≤ 10) :
    (f.puts l).depth = min f.depth (10 - h) := by
  induction hn generalizing f with
  | nil => show f.depth = _; omega
  | text s _ ih => exact ih (f.text s) hf
  | fresh _ ih =>
    have := ih f.freshen (by rw [freshen_depth]; exact hf)
    rw [freshen_depth] at this; exact this
  | list _ _ ih1 ih2 =>
    rename_i h1 h2 l1 l2 _ _
    rw [puts_append]
    have e1 : (f.puts (.start :: l1)).depth = min (inc f.depth) (10 - h1) := by
      have := ih1 f.start (by
        show inc f.depth ≤ 10
        unfold inc; split <;> omega)
      exact this
    have e2 : ((f.puts (.start :: l1)).puts (.stop :: l2)).depth =
        min (dec (f.puts (.start :: l1)).depth) (10 - h2) := by
      have := ih2 (f.puts (.start :: l1)).stop (by
        show dec _ ≤ 10
        rw [e1]; unfold dec; split <;> omega)
      exact this
    rw [e2, e1]
    unfold inc dec
    split <;> split <;> omega

/-- From level 0 every well-nested use returns to level 0. -/
theorem C46_top_level_partial (h : Nat) (l : List Ev) (hn : Nested h l) : (Formatter.new.puts l).depth = 0 := by
  rw [C46_indentation_partial h l hn _ (by decide)]
  show min 0 _ = 0
  omega

/-- `(a b\n  (c))`. -/
example : Nested 2 [.start, .text ['a'], .text ['b'], .fresh, .start, .text ['c'], .stop, .stop] ∧
    (Formatter.new.puts [.start, .text ['a'], .text ['b'], .fresh, .start, .text ['c'], .stop, .stop]).buffer
      = "(a b\n  (c))".toList ∧ (∀ s, .text s ∈ [Ev.start, .text ['a'], .text ['b'], .fresh, .start, .text ['c'], .stop, .stop] → Word s) := by
  refine ⟨?_, by decide, ?_⟩
  · exact Nested.list (l2 := []) (.text _ (.text _ (.fresh (.list (.text _ .nil) .nil)))) .nil
  · intro s hs
    simp at hs
    rcases hs with rfl | rfl | rfl <;> exact ⟨by decide, by decide⟩

/-- `n` lists inside each other. -/
def deep : Nat → List Ev
  | 0 => []
  | n + 1 => .start :: deep n ++ [.stop]

theorem deep_nested : ∀ n, Nested n (deep n)
  | 0 => .nil
  | n + 1 => by
    have := Nested.list (deep_nested n) Nested.nil
    rwa [show max (n + 1) 0 = n + 1 by omega] at this

/-- C46 fails for indentation: inside a list, at level 1, ten nested lists bring the level back to 0, so the
next line of the outer list is not indented. -/
theorem C46_negation : Nested 10 (deep 10) ∧ (Formatter.new.puts [.start]).depth = 1 ∧
    (Formatter.new.puts (.start :: deep 10)).depth = 0 :=
  ⟨deep_nested 10, rfl, by decide⟩

/-! ### C58: quoted strings -/

/-- Reading a string literal without escapes: the contents between the first quote and the next, and what
follows. -/
def readQuoted : List Char → Option (List Char × List Char)
  | '"' :: t => some (t.takeWhile (· ≠ '"'), (t.dropWhile (· ≠ '"')).drop 1)
  | _ => none

/-- C58, strings without a quote: a quoted string followed by anything reads back as the string. Missing:
strings containing a quote. -/
theorem C58_quoted_partial (s rest : List Char) (h : '"' ∉ s) : readQuoted (stringify s ++ rest) = some (s, rest) := by
  unfold stringify
  rw [List.cons_append, List.cons_append, List.append_assoc]
  show some _ = _
  have h1 : (s ++ (['"'] ++ rest)).takeWhile (fun c => c ≠ '"') = s := by
    induction s with
    | nil => rfl
    | cons c s ih =>
      have hc : c ≠ '"' := fun e => h (by simp [e])
      simp [hc]
      have := ih (fun e => h (by simp [e]))
      simpa using this
  have h2 : (s ++ (['"'] ++ rest)).dropWhile (fun c => c ≠ '"') = '"' :: rest := by
    clear h1
    induction s with
    | nil => rfl
    | cons c s ih =>
      have hc : c ≠ '"' := fun e => h (by simp [e])
      simp [hc]
      have := ih (fun e => h (by simp [e]))
      simpa using this
  rw [h1, h2]; rfl

/-- C58 fails: different strings, sent one after the other, may give the same text. -/
theorem C58_negation :
    (Formatter.new.puts [.text (stringify "a\" \"b".toList)]).buffer =
      (Formatter.new.puts [.text (stringify "a".toList), .text (stringify "b".toList)]).buffer ∧
    readQuoted (stringify "a\" \"b".toList) = some ("a".toList, " \"b\"".toList) := by decide

end Ab.Sexpr
