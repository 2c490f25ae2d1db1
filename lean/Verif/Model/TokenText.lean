import Verif.Model.Token
import Verif.Model.LineInfo
/-!
Model of the debug text of tokens and places (edn/include/Ab/Edn/DebugPrinting.hpp, edn/include/Ab/Edn/Printing.hpp).
Simplification: how `fmt` writes a `double` (DebugPrinting.hpp:94-96) is a parameter; numbers are written in decimal.
-/
namespace Ab.Edn

/-- An unsigned number, as `fmt` writes it. -/
def digitsOf (n : Nat) : List Char := (Nat.repr n).toList

/-- A signed number, as `fmt` writes it. -/
def signedOf (v : U64) : List Char := (Int.repr v.toInt).toList

/-- `formatter<SrcPos>` (Printing.hpp:17-20). -/
def posText (p : Nat) : List Char := "(src-pos ".toList ++ digitsOf p ++ [')']

/-- `formatter<SrcRange>` (Printing.hpp:30-33). -/
def rangeText (lo hi : Nat) : List Char := "(src-range ".toList ++ posText lo ++ ' ' :: posText hi ++ [')']

/-- `formatter<Location>` (Printing.hpp:43-47). -/
def locationText (line column : Nat) : List Char := "(location ".toList ++ digitsOf line ++ ' ' :: digitsOf column ++ [')']

/-- `formatter<LocationRange>` (Printing.hpp:57-60). -/
def locationRangeText (l1 c1 l2 c2 : Nat) : List Char :=
  "(location-range ".toList ++ locationText l1 c1 ++ ' ' :: locationText l2 c2 ++ [')']

/-- `formatter<TokenKind>` (DebugPrinting.hpp:18-66). -/
def TokenKind.name : TokenKind → List Char
  | .lparen => "lparen".toList
  | .rparen => "rparen".toList
  | .lbrace => "lbrace".toList
  | .rbrace => "rbrace".toList
  | .lbracket => "lbracket".toList
  | .rbracket => "rbracket".toList
  | .symbol => "symbol".toList
  | .integer => "integer".toList
  | .real => "real".toList
  | .keyword => "keyword".toList
  | .string => "string".toList
  | .carat => "carat".toList
  | .end_ => "end".toList
  | .uninitialized | .error | .nil | .bool | .delimiter | .hash => "???".toList

/-- `int(token.kind())` (DebugPrinting.hpp:100; the enumerators of Token.hpp:20-43). -/
def TokenKind.number : TokenKind → Nat
  | .uninitialized => 0 | .error => 1 | .end_ => 2 | .nil => 3 | .bool => 4 | .string => 5 | .keyword => 6 | .delimiter => 7
  | .symbol => 8 | .integer => 9 | .real => 10 | .carat => 11 | .hash => 12 | .lparen => 13 | .rparen => 14
  | .lbracket => 15 | .rbracket => 16 | .lbrace => 17 | .rbrace => 18

/-- `formatter<Token>` (DebugPrinting.hpp:76-103); `real` writes a `double` given by its bits. -/
def RawToken.text (real : U64 → List Char) (t : RawToken) : List Char :=
  match t.kind with
  | .lparen | .rparen | .lbrace | .rbrace | .lbracket | .rbracket | .keyword | .symbol | .string | .carat | .end_ =>
    '(' :: t.kind.name ++ ' ' :: rangeText t.lo t.hi ++ [')']
  | .integer => "(integer ".toList ++ signedOf t.data ++ ' ' :: rangeText t.lo t.hi ++ [')']
  | .real => "(real ".toList ++ real t.data ++ ' ' :: rangeText t.lo t.hi ++ [')']
  | .uninitialized | .error | .nil | .bool | .delimiter | .hash =>
    "(unknown ".toList ++ digitsOf t.kind.number ++ ' ' :: rangeText t.lo t.hi ++ [')']

end Ab.Edn
