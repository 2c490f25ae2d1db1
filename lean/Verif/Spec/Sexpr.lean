import Verif.Model.Sexpr
/-! How S-expression output should be laid out. -/
namespace Ab.Spec.Layout

open Sexpr (Ev)

/-- Levels of indentation: one more, at most ten; one less. -/
def up (d : Nat) : Nat := min (d + 1) 10
def down (d : Nat) : Nat := d - 1

/-- What is seen of something sent to the formatter. -/
def shown : Ev → List Char
  | .start => ['(']
  | .stop => [')']
  | .text s => s
  | .fresh | .indent | .dedent => []

/-- Between two things on a line: one space, but none after an opening or before a closing parenthesis. -/
def gap (a b : Ev) : List Char := if a = .start ∨ b = .stop then [] else [' ']

/-- The rest of a line, after `a`. -/
def renderRest (a : Ev) : List Ev → List Char
  | [] => []
  | b :: l => gap a b ++ shown b ++ renderRest b l

/-- A line whose first thing was sent at level `d`: two spaces for each level, none in front of a closing parenthesis. -/
def renderLine (d : Nat) : List Ev → List Char
  | [] => []
  | e :: l => (if e = .stop then [] else List.replicate (2 * d) ' ') ++ shown e ++ renderRest e l

/-- The output: `line` has been sent since the last line break, its first thing at level `d`; the level is now `k`.
Line breaks after nothing do nothing. -/
def layout (d : Nat) (line : List Ev) (k : Nat) : List Ev → List Char
  | [] => renderLine d line
  | .fresh :: l => (if line = [] then [] else renderLine d line ++ ['\n']) ++ layout k [] k l
  | .indent :: l => layout (if line = [] then up k else d) line (up k) l
  | .dedent :: l => layout (if line = [] then down k else d) line (down k) l
  | .text s :: l => layout d (line ++ [.text s]) k l
  | .start :: l => layout d (line ++ [.start]) (up k) l
  | .stop :: l => layout d (line ++ [.stop]) (down k) l

/-- The levels stay between 0 and 10: no `)` or dedentation too many, and nesting at most ten deep. -/
def Within : Nat → List Ev → Prop
  | _, [] => True
  | d, .start :: l | d, .indent :: l => d < 10 ∧ Within (d + 1) l
  | d, .stop :: l | d, .dedent :: l => 0 < d ∧ Within (d - 1) l
  | d, .fresh :: l | d, .text _ :: l => Within d l

/-- How many lists and indentations have been opened and not closed. -/
def opened : List Ev → Int
  | [] => 0
  | .start :: l | .indent :: l => opened l + 1
  | .stop :: l | .dedent :: l => opened l - 1
  | .fresh :: l | .text _ :: l => opened l

end Ab.Spec.Layout
