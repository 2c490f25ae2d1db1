import Verif.Model.EdnLexer
/-!
Model of tokens as objects (edn/include/Ab/Edn/Token.hpp) and of source ranges (parse/include/Ab/Parse/Location.hpp:41-100).
Simplification: the union `TokenData` is the 64 bits of its widest members; `as_bool` is their lowest byte.
-/
namespace Ab.Edn

/-- `TokenKind` (Token.hpp:20-43). -/
inductive TokenKind where
  | uninitialized | error | end_ | nil | bool | string | keyword | delimiter | symbol | integer | real | carat | hash
  | lparen | rparen | lbracket | rbracket | lbrace | rbrace
deriving Repr, DecidableEq

/-- `Token` (Token.hpp:60-104): kind, range, data. -/
structure RawToken where
  kind : TokenKind
  lo : Nat
  hi : Nat
  data : U64
deriving Repr, DecidableEq

/-- `operator==` (Token.hpp:114-148). -/
def RawToken.eq (a b : RawToken) : Outcome Bool :=
  if a.kind ≠ b.kind then .ok false
  else if ¬ (a.lo = b.lo ∧ a.hi = b.hi) then .ok false
  else
    match a.kind with
    | .integer => .ok (a.data == b.data)
    | .real => .ok (dblEq a.data b.data)
    | .bool => .ok (a.data.setWidth 8 == b.data.setWidth 8)
    | .end_ | .nil | .keyword | .symbol | .carat | .string | .error | .lparen | .rparen | .lbrace | .rbrace | .lbracket
    | .rbracket => .ok true
    | .uninitialized | .delimiter | .hash => .trap "AB_ASSERT_UNREACHABLE"

/-- `operator!=` (Token.hpp:150). -/
def RawToken.ne (a b : RawToken) : Outcome Bool := do
  let r ← a.eq b
  .ok (!r)

/-- The token object the lexer makes (`tok_nil` and so on, Token.hpp:156-177, and the `Token` constructors called in
ab-edn-lexer.cpp.rl:232-337). -/
def Token.raw (t : Token) : RawToken :=
  match t.kind with
  | .nil => ⟨.nil, t.lo, t.hi, 0#64⟩
  | .bool b => ⟨.bool, t.lo, t.hi, if b then 1#64 else 0#64⟩
  | .integer v => ⟨.integer, t.lo, t.hi, v⟩
  | .real v => ⟨.real, t.lo, t.hi, v⟩
  | .string => ⟨.string, t.lo, t.hi, 0#64⟩
  | .symbol => ⟨.symbol, t.lo, t.hi, 0#64⟩
  | .keyword => ⟨.keyword, t.lo, t.hi, 0#64⟩
  | .lparen => ⟨.lparen, t.lo, t.hi, 0#64⟩
  | .rparen => ⟨.rparen, t.lo, t.hi, 0#64⟩
  | .lbracket => ⟨.lbracket, t.lo, t.hi, 0#64⟩
  | .rbracket => ⟨.rbracket, t.lo, t.hi, 0#64⟩
  | .lbrace => ⟨.lbrace, t.lo, t.hi, 0#64⟩
  | .rbrace => ⟨.rbrace, t.lo, t.hi, 0#64⟩

/-- `tok_end` at a position (Token.hpp:160, ab-edn-lexer.cpp.rl:377-398). -/
def endToken (pos : Nat) : RawToken := ⟨.end_, pos, pos, 0#64⟩

/-- All tokens `Lexer::next` gives for a text, up to and including the first END. -/
def rawTokens (L : Lib) (s : List Byte) : Outcome (List RawToken) := do
  let (ts, l) ← lex L s
  .ok (ts.map Token.raw ++ [endToken l.pos])

/-- `SrcRange::length` (Location.hpp:51): unsigned. -/
def rangeLength (lo hi : Nat) : Nat := (2^64 + hi % 2^64 - lo % 2^64) % 2^64

/-- `SrcRange::strv` (Location.hpp:67-69): `std::string_view::substr`, which throws `std::out_of_range` for a position after the
end and shortens a length that goes past it. -/
def RawToken.strv (t : RawToken) (buffer : List Byte) : Outcome (List Byte) :=
  if buffer.length < t.lo then .throw "std::out_of_range"
  else .ok ((buffer.drop t.lo).take (rangeLength t.lo t.hi))

end Ab.Edn
