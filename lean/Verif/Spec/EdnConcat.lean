import Verif.Spec.EdnLayout
/-! One EDN text after another. -/
namespace Ab.Spec

open Edn

/-- Reading the text ends, with this outcome. -/
def ReadsTo (L : Lib) (tab : SymTab) (s : List Byte) (o : Outcome Doc) : Prop :=
  o ≠ .fuel ∧ ∃ fuel, parse L fuel tab s = o

/-- An error message about a place `n` bytes further on. -/
def Further (n : Nat) (e : Err) : Err := ⟨e.lo + n, e.hi + n, e.msg⟩

/-- From the outcome of reading a text (first), the outcome of reading it `n` bytes into a text whose beginning has
been read as `d`: the nodes come after the nodes of `d`, the symbols are the same, the errors and the line breaks recorded come
after those of `d` and are further on; or it is the same failure. -/
def GoesOnAs (d : Doc) (n : Nat) : Outcome Doc → Outcome Doc → Prop
  | .ok a, .ok b => b.nodes = d.nodes ++ a.nodes ∧ b.tab = a.tab ∧ b.errors = d.errors ++ a.errors.map (Further n) ∧
      b.breaks = d.breaks ++ a.breaks.map (· + n)
  | .throw a, .throw b => a = b
  | .trap a, .trap b => a = b
  | .ub a, .ub b => a = b
  | _, _ => False

/-- The text ends in an escaped double quote. -/
def EndsEscaped (t : List Byte) : Prop := ∃ u, t = u ++ ascii "\\\""

end Ab.Spec
