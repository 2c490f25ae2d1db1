import Verif.Spec.EdnLex
/-! The lexical grammar of EDN as this implementation documents it, in terms of characters and without
regular expressions. -/
namespace Ab.Spec

open Edn

/-- The bytes of an ASCII text. -/
def ascii (s : String) : List Byte := s.toList.map (fun c => BitVec.ofNat 8 c.toNat)

/-- The byte is one of these characters. -/
def oneOf (s : String) (b : Byte) : Prop := b ∈ ascii s

/-- A decimal digit. -/
def Digit (b : Byte) : Prop := oneOf "0123456789" b
/-- A letter. -/
def Letter (b : Byte) : Prop := oneOf "abcdefghijklmnopqrstuvwxyzABCDEFGHIJKLMNOPQRSTUVWXYZ" b

/-- Nothing, `+` or `-`. -/
def SignText (t : List Byte) : Prop := t = [] ∨ t = ascii "+" ∨ t = ascii "-"
/-- One or more digits. -/
def Digits (t : List Byte) : Prop := t ≠ [] ∧ ∀ b ∈ t, Digit b
/-- A point and digits. -/
def PointText (t : List Byte) : Prop := ∃ ds, t = ascii "." ++ ds ∧ Digits ds
/-- `e` or `E`, a sign and digits. -/
def ExpText (t : List Byte) : Prop := ∃ e sg ds, t = [e] ++ sg ++ ds ∧ oneOf "eE" e ∧ SignText sg ∧ Digits ds

/-- A character that may stand inside a name. -/
def NameChar (b : Byte) : Prop := Letter b ∨ Digit b ∨ oneOf ".+-#:*!_?$%&=<" b
/-- A name: starts with a letter or one of `.*!_?$%&=<`; or with one of `.+-`, then a character that is not
a digit. -/
def NameText (t : List Byte) : Prop :=
  (∃ c u, t = c :: u ∧ (Letter c ∨ oneOf ".*!_?$%&=<" c) ∧ ∀ b ∈ u, NameChar b) ∨
  (∃ c d u, t = c :: d :: u ∧ oneOf ".+-" c ∧ NameChar d ∧ ¬ Digit d ∧ ∀ b ∈ u, NameChar b)
/-- A name, or a prefix, a slash and a name. -/
def SymbolText (t : List Byte) : Prop := NameText t ∨ ∃ p n, t = p ++ ascii "/" ++ n ∧ NameText p ∧ NameText n
/-- One character of a string, or an escape. -/
def StringPiece (p : List Byte) : Prop :=
  (∃ b, p = [b] ∧ ¬ oneOf "\"'" b) ∨ (∃ b, p = ascii "\\" ++ [b] ∧ oneOf "tnr\\\"'" b)

/-- The texts of each kind of token. -/
def TokenText : Rule → List Byte → Prop
  | .nil, t => t = ascii "nil"
  | .true, t => t = ascii "true"
  | .false, t => t = ascii "false"
  | .real, t => ∃ sg ds r, t = sg ++ ds ++ r ∧ SignText sg ∧ Digits ds ∧
      (PointText r ∨ ExpText r ∨ ∃ p e, r = p ++ e ∧ PointText p ∧ ExpText e)
  | .integer, t => ∃ sg ds, t = sg ++ ds ∧ SignText sg ∧
      (ds = ascii "0" ∨ ∃ d u, ds = d :: u ∧ oneOf "123456789" d ∧ ∀ b ∈ u, Digit b)
  | .lparen, t => t = ascii "("
  | .rparen, t => t = ascii ")"
  | .lbracket, t => t = ascii "["
  | .rbracket, t => t = ascii "]"
  | .lbrace, t => t = ascii "{"
  | .rbrace, t => t = ascii "}"
  | .keyword, t => ∃ u, t = ascii ":" ++ u ∧ SymbolText u
  | .symbol, t => SymbolText t
  | .string, t => ∃ ps : List (List Byte), t = ascii "\"" ++ ps.flatten ++ ascii "\"" ∧ ∀ p ∈ ps, StringPiece p
  | .whitespace, t => t ≠ [] ∧ ∀ b ∈ t, oneOf " \t,\n" b
  | .comment, t => ∃ u, t = ascii ";" ++ u ++ ascii "\n" ∧ ∀ b ∈ u, ¬ oneOf "\n" b

/-- The kinds of token, most preferred first when two match the same text. -/
def tokenOrder : List Rule :=
  [.nil, .true, .false, .real, .integer, .lparen, .rparen, .lbracket, .rbracket, .lbrace, .rbrace, .keyword,
   .symbol, .string, .whitespace, .comment]

/-- The first `n` bytes are a token of kind `r`, of no kind preferred to it, and no longer prefix is a token. -/
structure Munch (s : List Byte) (r : Rule) (n : Nat) : Prop where
  pos : 0 < n
  le : n ≤ s.length
  token : TokenText r (s.take n)
  preferred : ∃ i : Nat, tokenOrder[i]? = some r ∧ ∀ (j : Nat) q, j < i → tokenOrder[j]? = some q → ¬ TokenText q (s.take n)
  longest : ∀ m q, n < m → m ≤ s.length → ¬ TokenText q (s.take m)

/-- No prefix is a token. -/
def NoToken (s : List Byte) : Prop := ∀ m q, 0 < m → m ≤ s.length → ¬ TokenText q (s.take m)

/-- The text is cut into tokens (whitespace and comments too) from the left; `rest` is left over. -/
inductive Chunks : List Byte → List (Rule × List Byte) → List Byte → Prop
  | done {s} : NoToken s → Chunks s [] s
  | step {s r n ls rest} : Munch s r n → Chunks (s.drop n) ls rest → Chunks s ((r, s.take n) :: ls) rest

/-- A real literal: sign, integer digits, digits after the point (none if there is no point) and exponent
(0 if there is none); a point or an exponent is there. -/
def RealText (t : List Byte) (neg : Bool) (ints frac : List Byte) (ex : Int) : Prop :=
  ∃ sg pt et, t = sg ++ ints ++ pt ++ et ∧ SignText sg ∧ (neg = true ↔ sg = ascii "-") ∧ Digits ints ∧
    ((pt = [] ∧ frac = []) ∨ (pt = ascii "." ++ frac ∧ Digits frac)) ∧
    ((et = [] ∧ ex = 0) ∨ ∃ e u, et = e :: u ∧ oneOf "eE" e ∧ IntText u ex) ∧ ¬ (pt = [] ∧ et = [])

/-- The value of a digit. -/
def digitVal (d : Byte) : Int := d.toNat - 48

/-- The integer part, most significant digit first, with the operations of `A`. -/
def wholeIn {R} (A : Arith R) (ds : List Byte) : R :=
  ds.foldl (fun v d => A.add (A.mul v (A.ofInt 10)) (A.ofInt (digitVal d))) (A.ofInt 0)

/-- Adds the digits after the point to `v`, where `f` is the weight of the place before. -/
def fracIn {R} (A : Arith R) (f v : R) : List Byte → R
  | [] => v
  | d :: ds =>
    fracIn A (A.div f (A.ofInt 10)) (A.add v (A.mul (A.ofInt (digitVal d)) (A.div f (A.ofInt 10)))) ds

/-- A real literal's value with the operations of `A`, in the order the implementation documents. -/
def realIn {R} (A : Arith R) (neg : Bool) (ints frac : List Byte) (ex : Int) : R :=
  let v := fracIn A (A.ofInt 1) (wholeIn A ints) frac
  A.mul (if neg then A.mul v (A.ofInt (-1)) else v) (A.pow10 ex)

/-- The kind of token, with its value, for a piece of text. -/
inductive KindOf (L : Lib) : Rule → List Byte → Kind → Prop
  | nil {t} : KindOf L .nil t .nil
  | true {t} : KindOf L .true t (.bool true)
  | false {t} : KindOf L .false t (.bool false)
  | real {t neg ints frac ex} : RealText t neg ints frac ex → ex.natAbs < 2^63 →
      KindOf L .real t (.real (realIn L.arith neg ints frac ex))
  | integer {t v} : IntText t v → v.natAbs < 2^63 → KindOf L .integer t (.integer (BitVec.ofInt 64 v))
  | lparen {t} : KindOf L .lparen t .lparen
  | rparen {t} : KindOf L .rparen t .rparen
  | lbracket {t} : KindOf L .lbracket t .lbracket
  | rbracket {t} : KindOf L .rbracket t .rbracket
  | lbrace {t} : KindOf L .lbrace t .lbrace
  | rbrace {t} : KindOf L .rbrace t .rbrace
  | keyword {t} : KindOf L .keyword t .keyword
  | symbol {t} : KindOf L .symbol t .symbol
  | string {t} : KindOf L .string t .string

/-- The tokens of the pieces of a text, the first of which stands at `pos`: none for whitespace and comments,
one for any other, with its text and range. -/
inductive Tokens (L : Lib) : Nat → List (Rule × List Byte) → List Token → Prop
  | nil {pos} : Tokens L pos [] []
  | skip {pos r t ls ts} : IsSkip r → Tokens L (pos + t.length) ls ts → Tokens L pos ((r, t) :: ls) ts
  | token {pos r t k ls ts} : KindOf L r t k → Tokens L (pos + t.length) ls ts →
      Tokens L pos ((r, t) :: ls) (⟨k, t, pos, pos + t.length⟩ :: ts)

end Ab.Spec
