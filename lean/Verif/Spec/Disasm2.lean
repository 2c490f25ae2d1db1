import Verif.Spec.Disasm
/-! What the disassembler should print when it is asked to be verbose. -/
namespace Ab.Spec.Disasm
open Ab.Wasm Ab.Spec.Wasm

/-- The kind of a section. -/
def sectionKind : Content → String
  | .custom _ _ => "NAME"
  | .types _ => "TYPE"
  | .imports _ => "IMPORT"
  | .functions _ => "FUNCTION"
  | .tables _ => "TABLE"
  | .memories _ => "MEMORY"
  | .globals _ => "GLOBAL"
  | .exports _ => "EXPORT"
  | .start _ => "START"
  | .elements _ => "ELEMENT"
  | .code _ => "CODE"
  | .data _ => "DATA"

/-- A section: its kind, its name if it has one, and its size. -/
def sectionTree (num : Int → List Char) (s : WSection) : Tree :=
  .list ([word "section", .list [word "code", word (sectionKind s.content)]] ++
    (match s.content with
      | .custom n _ => [.list [word "name", .atom (n.map chr)]]
      | _ => []) ++
    [.list [word "size", number num s.length.toNat]])

/-- A line, indented `d` times. -/
def lineAt (d : Nat) (s : List Char) : List Char := '\n' :: List.replicate (2 * d) ' ' ++ s

/-- The number of entries, shown for types and imports only. -/
def countOf : Content → Option Nat
  | .types l => some l.length
  | .imports l => some l.length
  | _ => none

/-- The line on the number of entries. -/
def countLine : Option Nat → List Char
  | some n => lineAt 2 (";; count: ".toList ++ inDecimal n)
  | none => []

/-- A section: a comment that describes it, a comment with the number of entries, its entries, one a line. -/
def verboseSection (num : Int → List Char) (s : WSection) : List Char :=
  lineAt 1 (";;;;;;;;;;;;;; ".toList ++ (sectionTree num s).render) ++ countLine (countOf s.content) ++
    (items num s.content).flatMap fun t => lineAt 2 t.render

/-- A module. The closing parenthesis is on the last line, unless that shows a number of entries. -/
def verboseText (num : Int → List Char) (m : List WSection) : List Char :=
  "(module".toList ++ m.flatMap (verboseSection num) ++
    (match m.getLast? with
      | some s => if countOf s.content = some 0 then ['\n'] else []
      | none => []) ++ ")\n".toList

/-- Text without its comments, which go from two semicolons to the end of the line. -/
def uncomment (inside : Bool) : List Char → List Char
  | [] => []
  | '\n' :: l => '\n' :: uncomment false l
  | ';' :: ';' :: l => uncomment true l
  | c :: l => if inside then uncomment true l else c :: uncomment false l

/-- Text without white space. -/
def compact (t : List Char) : List Char := t.filter fun c => c ≠ ' ' ∧ c ≠ '\n'

end Ab.Spec.Disasm
