import Verif.Spec.Regex
import Verif.Model.EdnLexer
/-! How an EDN text divides into lexemes, and the tokens and line breaks that follow from it. -/
namespace Ab.Spec

open Edn Re

/-- The text `s` divides into the lexemes `ls`, each the longest match where it starts, up to a point
where no rule matches; `rest` is what is left from there on. -/
inductive Lexemes : List Byte → List (Rule × List Byte) → List Byte → Prop
  | done {s} : NoMatch rules s → Lexemes s [] s
  | step {s r n ls rest} : Longest rules s r n → Lexemes (s.drop n) ls rest →
      Lexemes s ((r, s.take n) :: ls) rest

/-- Whitespace and comments. -/
def IsSkip (r : Rule) : Prop := r = .whitespace ∨ r = .comment

instance (r : Rule) : Decidable (IsSkip r) := by unfold IsSkip; infer_instance

/-- The number written by decimal digits, most significant first. -/
def digitsVal : List Byte → Nat
  | [] => 0
  | d :: ds => (d.toNat - 48) * 10 ^ ds.length + digitsVal ds

/-- An optional sign and at least one digit, denoting a number. -/
inductive IntText : List Byte → Int → Prop
  | plain {ds} : ds ≠ [] → (∀ d ∈ ds, isDigit d = true) → IntText ds (digitsVal ds)
  | plus {ds} : ds ≠ [] → (∀ d ∈ ds, isDigit d = true) → IntText (43#8 :: ds) (digitsVal ds)
  | minus {ds} : ds ≠ [] → (∀ d ∈ ds, isDigit d = true) → IntText (45#8 :: ds) (-(digitsVal ds : Int))

/-- The tokens of a list of lexemes starting at `pos`: every lexeme that is not whitespace or a comment
gives one token, with its text and position. -/
def TokensOf (L : Lib) : Nat → List (Rule × List Byte) → List Token → Prop
  | _, [], ts => ts = []
  | pos, (r, t) :: ls, ts =>
    if IsSkip r then TokensOf L (pos + t.length) ls ts
    else ∃ k ts', ts = ⟨k, t, pos, pos + t.length⟩ :: ts' ∧ tokenOf L r t = .ok (some k) ∧
      TokensOf L (pos + t.length) ls ts'

end Ab.Spec
