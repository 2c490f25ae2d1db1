import Verif.Spec.EdnParse
import Verif.Spec.EdnTree
/-! How many collections are open at once while a token sequence is parsed. -/
namespace Ab.Spec

open Edn

/-- The greatest number of collections open at once, starting with `st` open, up to the end of the tokens or to where the
parser gives up. -/
def tallest : List Frame → List Token → Nat
  | st, [] => st.length
  | st, t :: ts => max st.length (match tokenStep st t.kind with
    | some st => tallest st ts
    | none => 0)

mutual
/-- How deeply collections are nested in a tree. -/
def depth : Tree → Nat
  | .list xs => depthList xs + 1
  | .vec xs => depthList xs + 1
  | .map es => depthEntries es + 1
  | _ => 0
def depthList : List Tree → Nat
  | [] => 0
  | x :: xs => max (depth x) (depthList xs)
def depthEntries : List (Tree × Tree) → Nat
  | [] => 0
  | e :: es => max (depthEntry e) (depthEntries es)
def depthEntry : Tree × Tree → Nat
  | (k, v) => max (depth k) (depth v)
end

/-- A list in a list in a list, and so on, `n` of them. -/
def nest : Nat → Tree
  | 0 => .nil
  | n + 1 => .list [nest n]

end Ab.Spec
