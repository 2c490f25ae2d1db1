import Verif.Spec.Disasm2
import Verif.Spec.Wast
/-! Specification for C118: the lexemes a disassembly should be read back as. -/
namespace Ab.Spec.ReadBack
open Ab.Spec.Disasm Ab.Spec.Wast

mutual
/-- The S-expression consists of parentheses and words: no quoted name, no character outside words. -/
def Wordy : Tree → Prop
  | .atom s => s ≠ [] ∧ ∀ c ∈ s, WordChar c
  | .list l => WordyAll l
def WordyAll : List Tree → Prop
  | [] => True
  | t :: l => Wordy t ∧ WordyAll l
end

mutual
/-- The lexemes of an S-expression on one line. -/
def lexemes : Tree → List Lexeme
  | .atom s => [.word s]
  | .list l => .lparen :: lexemesAll l ++ [.rparen]
def lexemesAll : List Tree → List Lexeme
  | [] => []
  | t :: l => lexemes t ++ lexemesRest l
def lexemesRest : List Tree → List Lexeme
  | [] => []
  | t :: l => .space [' '] :: lexemes t ++ lexemesRest l
end

/-- The lexemes of a module: its entries, one a line, indented. -/
def moduleLexemes (entries : List Tree) : List Lexeme :=
  [.lparen, .word "module".toList] ++ entries.flatMap (fun t => .space "\n  ".toList :: lexemes t) ++
    [.rparen, .space ['\n']]

/-- The section shows a quoted text: it has an import, an export or a data segment. -/
def Quotes : Ab.Spec.Wasm.Content → Prop
  | .imports l => l ≠ []
  | .exports l => l ≠ []
  | .data l => l ≠ []
  | _ => False

/-- The section shows function types, or nothing at all. -/
def OnlyTypes : Ab.Spec.Wasm.Content → Prop
  | .imports l => l = []
  | .globals l => l = []
  | .exports l => l = []
  | .elements l => l = []
  | .data l => l = []
  | _ => True

end Ab.Spec.ReadBack
