import Verif.Basic
/-! Model of util/include/Ab/Sexpr.hpp and Indent.hpp: the S-expression formatter. -/
namespace Ab.Sexpr

/-- `Formatter` (Sexpr.hpp:80-83) with its `Indent` (Indent.hpp:52): its data members. -/
structure Formatter where
  buffer : List Char
  depth  : Nat
  fresh  : Bool
  needsSpacing : Bool
deriving Repr, DecidableEq

/-- `Formatter()` (Sexpr.hpp:15). -/
def Formatter.new : Formatter := ⟨[], 0, true, false⟩

/-- `Indent::operator++` (Indent.hpp:22-27), with `MAX_DEPTH` (18). -/
def inc (d : Nat) : Nat := if d < 10 then d + 1 else d
/-- `Indent::operator--` (Indent.hpp:29-34). -/
def dec (d : Nat) : Nat := if 0 < d then d - 1 else d
/-- `Indent::to_string` (Indent.hpp:43-49). -/
def indentation : Nat → List Char
  | 0 => []
  | d + 1 => indentation d ++ [' ', ' ']

/-- `freshen` (Sexpr.hpp:25-32). -/
def Formatter.freshen (f : Formatter) : Formatter :=
  if f.fresh then f else { f with fresh := true, needsSpacing := false, buffer := f.buffer ++ ['\n'] }

/-- `spacing` (Sexpr.hpp:35-44). -/
def Formatter.spacing (f : Formatter) : Formatter :=
  let b := if f.fresh then f.buffer ++ indentation f.depth
    else if f.needsSpacing then f.buffer ++ [' '] else f.buffer
  { f with buffer := b, needsSpacing := false, fresh := false }

/-- `operator<<` for a string or a character (Sexpr.hpp:86-105), with `dirty` (65-69). -/
def Formatter.text (f : Formatter) (s : List Char) : Formatter :=
  let f := f.spacing
  { f with buffer := f.buffer ++ s, fresh := false, needsSpacing := true }

/-- `operator<<` for `START` (Sexpr.hpp:123-130). -/
def Formatter.start (f : Formatter) : Formatter :=
  let f := f.spacing
  { f with buffer := f.buffer ++ ['('], fresh := false, needsSpacing := false, depth := inc f.depth }

/-- `operator<<` for `END` (Sexpr.hpp:138-144). -/
def Formatter.stop (f : Formatter) : Formatter :=
  { f with buffer := f.buffer ++ [')'], fresh := false, needsSpacing := true, depth := dec f.depth }

/-- `++out.indent()` (Sexpr.hpp:20, Indent.hpp:22-27). -/
def Formatter.indent (f : Formatter) : Formatter := { f with depth := inc f.depth }
/-- `--out.indent()` (Sexpr.hpp:20, Indent.hpp:29-34). -/
def Formatter.dedent (f : Formatter) : Formatter := { f with depth := dec f.depth }

/-- `stringify` (Sexpr.hpp:146-148). -/
def stringify (s : List Char) : List Char := '"' :: s ++ ['"']

/-- What a user sends to a formatter. -/
inductive Ev
  | start
  | stop
  | text (s : List Char)
  | fresh
  | indent
  | dedent
deriving Repr, DecidableEq

/-- One `<<`. -/
def Formatter.put (f : Formatter) : Ev → Formatter
  | .start => f.start
  | .stop => f.stop
  | .text s => f.text s
  | .fresh => f.freshen
  | .indent => f.indent
  | .dedent => f.dedent

/-- Several. -/
def Formatter.puts (f : Formatter) (l : List Ev) : Formatter := l.foldl Formatter.put f

end Ab.Sexpr
