import Verif.Model.Wast
/-!
Specification of the WAST lexer (C72–C74): texts are sequences of lexemes; a lexeme's place is counted from the text before it.
Only the vocabulary of tokens (`Kind`, `Loc`, `Range`) comes from the model.
-/
namespace Ab.Spec.Wast
open Ab.Wast (Kind Loc Range Token)

/-- A character of a word: a letter, a digit or one of `_ - . ~`. -/
def WordChar (c : Char) : Prop := c.isAlphanum = true ∨ c ∈ ['_', '-', '.', '~']

/-- White space: tab, newline, vertical tab, form feed, carriage return, blank. -/
def Space (c : Char) : Prop := c.toNat = 32 ∨ 9 ≤ c.toNat ∧ c.toNat ≤ 13

/-- What texts are made of. -/
inductive Lexeme where
  | lparen
  | rparen
  | word (s : List Char)
  | ident (s : List Char)      -- `$` and `s`
  | space (s : List Char)
deriving Repr, DecidableEq

def Lexeme.text : Lexeme → List Char
  | .lparen => ['(']
  | .rparen => [')']
  | .word s => s
  | .ident s => '$' :: s
  | .space s => s

/-- A lexeme by itself. -/
def Lexeme.Valid : Lexeme → Prop
  | .lparen | .rparen => True
  | .word s | .ident s => s ≠ [] ∧ ∀ c ∈ s, WordChar c
  | .space s => s ≠ [] ∧ ∀ c ∈ s, Space c

/-- Two lexemes that would be read as one if they were written next to each other. -/
def Joins : Lexeme → Lexeme → Prop
  | .word _, .word _ => True
  | .ident _, .word _ => True
  | .space _, .space _ => True
  | _, _ => False

/-- A sequence of lexemes that reads back as itself. -/
def Proper : List Lexeme → Prop
  | [] => True
  | [l] => l.Valid
  | l :: l' :: ls => l.Valid ∧ ¬ Joins l l' ∧ Proper (l' :: ls)

/-- The text of a sequence. -/
def write (ls : List Lexeme) : List Char := (ls.map Lexeme.text).flatten

/-- Where one is after the text `pre` when one was at `st` before it: lines are counted by newlines, columns from the last one. -/
def place (st : Loc) (pre : List Char) : Loc where
  offset := st.offset + pre.length
  line := st.line + pre.count '\n'
  column := if '\n' ∈ pre then 1 + (pre.reverse.takeWhile (· ≠ '\n')).length else st.column + pre.length

/-- The kind of token a lexeme makes; white space makes none. -/
def Lexeme.kind : Lexeme → Option Kind
  | .lparen => some .LPAREN
  | .rparen => some .RPAREN
  | .word _ => some .NAME
  | .ident _ => some .IDENTIFIER
  | .space _ => none

/-- A token as its user sees it: kind, range, text. -/
structure Seen where
  kind : Kind
  range : Range
  text : List Char
deriving Repr, DecidableEq

/-- The tokens of a sequence of lexemes written after `pre`. -/
def tokens (st : Loc) : List Char → List Lexeme → List Seen
  | _, [] => []
  | pre, l :: ls =>
    (match l.kind with
     | some k => [⟨k, ⟨place st pre, place st (pre ++ l.text)⟩, l.text⟩]
     | none => []) ++ tokens st (pre ++ l.text) ls

/-- What a token shows when the buffers hold `text`. -/
def seen (text : Nat → List Char) (t : Token) : Seen :=
  ⟨t.kind, t.location, ((text t.first.buf).drop t.first.idx).take (t.last.idx - t.first.idx)⟩

/-- A place in writing. -/
def showPlace (l : Loc) : List Char := s!"{l.line}:{l.column} @{l.offset}".toList

/-- The line the lexer prints for a lexeme that goes from `a` to `b`. For parentheses, what is called the start is the place
after them. -/
def line (a b : Loc) : Lexeme → List Char
  | .lparen => "(lparen :start ".toList ++ showPlace b ++ ")\n".toList
  | .rparen => "(rparen :start ".toList ++ showPlace b ++ ")\n".toList
  | .word s => "(name ".toList ++ s ++ " :start ".toList ++ showPlace a ++ " :end ".toList ++ showPlace b ++ ")\n".toList
  | .ident s => "(indentifier $".toList ++ s ++ " :start ".toList ++ showPlace a ++ " :end ".toList ++ showPlace b ++ ")\n".toList
  | .space s => if s = ['\n'] then "(new-line :start)\n".toList else "(whitespace)\n".toList

/-- Everything the lexer prints for a sequence of lexemes written after `pre`. -/
def lines (st : Loc) : List Char → List Lexeme → List Char
  | _, [] => []
  | pre, l :: ls => line (place st pre) (place st (pre ++ l.text)) l ++ lines st (pre ++ l.text) ls

/-- Nothing can be read at the front of `s`: its first character begins no lexeme, or it is a `$` without a word. -/
def Unreadable (s : List Char) : Prop :=
  ∃ c t, s = c :: t ∧ c ≠ '(' ∧ c ≠ ')' ∧ ¬ WordChar c ∧ ¬ Space c ∧ (c = '$' → ∀ d u, t = d :: u → ¬ WordChar d)

/-- The text of a file that comes in pieces, each in a buffer of its own. -/
def buffers (pieces : List (List Char)) : Nat → List Char := fun k => pieces[k]?.getD []

/-- Lexing the pieces `k`, `k + 1`, … one after another, `n` of them; the last one ends the file. -/
def lexPieces (text : Nat → List Char) (s : Ab.Wast.Lexer) (k : Nat) : Nat → Outcome Ab.Wast.Lexer
  | 0 => .ok s
  | 1 => Ab.Wast.lex text s ⟨k, 0⟩ (text k).length true
  | n + 2 => do
    let s ← Ab.Wast.lex text s ⟨k, 0⟩ (text k).length false
    lexPieces text s (k + 1) (n + 1)

/-- The piece ends with a parenthesis or white space, or is empty. -/
def EndsBetween (piece : List Char) : Prop := ∀ c ∈ piece.getLast?, c = '(' ∨ c = ')' ∨ Space c

end Ab.Spec.Wast
