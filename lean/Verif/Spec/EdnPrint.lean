import Verif.Model.EdnLexer
/-! What the EDN parser writes for a token. -/
namespace Ab.Spec.EdnPrint
open Ab.Edn

/-- The line written for a token, if it is a name or a string: `parsed `, what it is, a space, its text, a line feed. -/
def line (t : Token) : List Byte :=
  match t.kind with
  | .string => [112#8, 97#8, 114#8, 115#8, 101#8, 100#8, 32#8, 115#8, 116#8, 114#8, 105#8, 110#8, 103#8, 32#8] ++ t.text ++ [10#8]
  | .symbol => [112#8, 97#8, 114#8, 115#8, 101#8, 100#8, 32#8, 115#8, 121#8, 109#8, 98#8, 111#8, 108#8, 32#8] ++ t.text ++ [10#8]
  | .keyword => [112#8, 97#8, 114#8, 115#8, 101#8, 100#8, 32#8, 107#8, 101#8, 121#8, 119#8, 111#8, 114#8, 100#8, 32#8] ++ t.text ++ [10#8]
  | _ => []

/-- The lines for tokens, in order. -/
def lines (ts : List Token) : List Byte := ts.flatMap line

end Ab.Spec.EdnPrint
