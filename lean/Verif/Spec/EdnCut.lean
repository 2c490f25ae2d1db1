import Verif.Spec.EdnGrammar
import Verif.Spec.EdnConcat
import Verif.Spec.EdnForm
/-! EDN texts that lost their end. -/
namespace Ab.Spec

open Edn

/-- A double quote follows a backslash in the text. -/
def HasEscapedQuote (t : List Byte) : Prop := ∃ a b, t = a ++ ascii "\\\"" ++ b

/-- The node is not a list, vector or map. -/
def IsAtom : Node → Prop
  | .list _ | .vec _ | .map _ => False
  | _ => True

/-- The text `kept` ends in the middle of one of the pieces. -/
def EndsInside (ls : List (Rule × List Byte)) (kept : List Byte) : Prop :=
  ∃ l1 r u z l2, ls = l1 ++ (r, u ++ z) :: l2 ∧ kept = (l1.map Prod.snd).flatten ++ u ∧ u ≠ [] ∧ z ≠ []

/-- The tokens that end within the first `n` bytes. -/
def tokensIn (n : Nat) (ts : List Token) : List Token := ts.filter (fun t => t.hi ≤ n)

end Ab.Spec
