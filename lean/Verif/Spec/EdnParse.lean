import Verif.Model.EdnParser
/-! Which collections are open at the end of a token sequence, and what becomes of parsing it. -/
namespace Ab.Spec

open Edn

/-- An open collection: a list or vector, or a map that expects a key or a value next. -/
inductive Frame where
  | seq | key | val
deriving DecidableEq, Repr

/-- One datum is complete: a map turns from key to value and back. The innermost collection is first. -/
def datum : List Frame → List Frame
  | .key :: st => .val :: st
  | .val :: st => .key :: st
  | st => st

/-- The effect of a token on the open collections. A closing delimiter closes the innermost collection (a wrong one is
reported), except where a map value is expected: there `]` stands for the value. `none`: the parser gives up – on a `}`
that would close a list or vector, and on a `}` or `)` where a map value is expected. -/
def tokenStep (st : List Frame) : Kind → Option (List Frame)
  | .lparen | .lbracket => some (.seq :: datum st)
  | .lbrace => some (.key :: datum st)
  | .rparen =>
    match st with
    | .val :: _ => none
    | _ :: st => some st
    | [] => some []
  | .rbrace =>
    match st with
    | .val :: _ | .seq :: _ => none
    | .key :: st => some st
    | [] => some []
  | .rbracket =>
    match st with
    | .val :: st => some (.key :: st)
    | _ :: st => some st
    | [] => some []
  | _ => some (datum st)

/-- The collections open after the tokens, unless the parser gives up before. -/
def openAfter : List Frame → List Token → Option (List Frame)
  | st, [] => some st
  | st, t :: ts =>
    match tokenStep st t.kind with
    | some st => openAfter st ts
    | none => none

/-- What becomes of parsing. -/
inductive Verdict where
  | returns | throws | runs
deriving DecidableEq, Repr

/-- Parsing returns if no map is open at the end and goes on for ever if one is. -/
def verdict (st : List Frame) (ts : List Token) : Verdict :=
  match openAfter st ts with
  | none => .throws
  | some st => if st.all (· = .seq) then .returns else .runs

end Ab.Spec
