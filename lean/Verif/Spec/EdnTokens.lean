import Verif.Model.Token
import Verif.Spec.EdnLayout
/-! What the token object for a piece of text must hold. -/
namespace Ab.Spec

open Edn

/-- The kind of token each kind of piece is delivered as. -/
def kindFor : Rule → TokenKind
  | .nil => .nil
  | .true => .bool
  | .false => .bool
  | .real => .real
  | .integer => .integer
  | .lparen => .lparen
  | .rparen => .rparen
  | .lbracket => .lbracket
  | .rbracket => .rbracket
  | .lbrace => .lbrace
  | .rbrace => .rbrace
  | .keyword => .keyword
  | .symbol => .symbol
  | .string => .string
  | .whitespace => .error
  | .comment => .error

/-- The token object is of the piece's kind and carries its value: 1 or 0 for `true` and `false`, the number denoted by an
integer, that of a real computed with the arithmetic of the library. -/
def Carries (L : Lib) (x : Rule × List Byte) (t : RawToken) : Prop :=
  t.kind = kindFor x.1 ∧ (x.1 = .true → t.data = 1) ∧ (x.1 = .false → t.data = 0) ∧
    (x.1 = .integer → ∃ v, IntText x.2 v ∧ v.natAbs < 2^63 ∧ t.data = BitVec.ofInt 64 v) ∧
    (x.1 = .real → ∃ neg ints frac ex, RealText x.2 neg ints frac ex ∧ t.data = realIn L.arith neg ints frac ex)

end Ab.Spec
