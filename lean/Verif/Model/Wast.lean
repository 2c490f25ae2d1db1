import Verif.Basic
/-!
Model of the WAST lexer: wast/src/ab-wast-Lexer.cpp.rl, wast/include/Ab/Wast/Lexer.hpp and Location.hpp.

Ragel's scanner is taken to work as its manual says: longest match, first rule on ties; entering actions before, finishing
actions in order of appearance, the rule's action last. The automaton it generates for this grammar is written out as `CS`
and `stepChar`. The machines `long_comment`, `short_comment`, `comment` and `string` of the grammar (lines 44-56) are not used by `main`, so
they are no part of the automaton. Characters are bytes, a `Char` each.
-/
namespace Ab.Wast

/-- `Location` (Location.hpp:7-11): three `int`s. -/
structure Loc where
  offset : Int
  line : Int
  column : Int
deriving Repr, DecidableEq

/-- `Range` (Location.hpp:13-16). -/
structure Range where
  start : Loc
  stop : Loc
deriving Repr, DecidableEq

/-- `TokenKind` (Lexer.hpp:25). -/
inductive Kind where
  | NAME | IDENTIFIER | NUMBER | LPAREN | RPAREN | END | ERROR
deriving Repr, DecidableEq

/-- A pointer into the text: the buffer and the index in it. -/
structure Ptr where
  buf : Nat
  idx : Nat
deriving Repr, DecidableEq

/-- `Token` (Lexer.hpp:27-32). -/
structure Token where
  kind : Kind
  location : Range
  first : Ptr
  last : Ptr       -- one past the end
deriving Repr, DecidableEq

/-- The states of the generated automaton. `start` is its start state; `newline` is reached by a single `\n`, `space` by any
other white space. -/
inductive CS where
  | start | name | dollar | ident | newline | space | error
deriving Repr, DecidableEq

/-- `Lexer` (Lexer.hpp:34-65) and what it has written to the standard output. `te` is only used inside the
actions. -/
structure Lexer where
  cs : CS
  ts : Option Ptr
  start : Loc
  location : Loc
  output : List Token
  printed : List Char
deriving Repr, DecidableEq

/-- `Lexer::Lexer` (Lexer.cpp.rl:105-107, Lexer.hpp:36). `start` is not initialised there: the parameter `junk`. -/
def Lexer.make (junk : Loc) (l : Loc) : Lexer := ⟨.start, none, junk, l, [], []⟩

/-- The default argument `{0, 1, 1}` (Lexer.hpp:36). -/
def Loc.first : Loc := ⟨0, 1, 1⟩

/-- `fmt::formatter<Location>` (Lexer.hpp:9-21): `{}:{} @{}` of line, column, offset. -/
def Loc.fmt (l : Loc) : List Char :=
  (toString l.line).toList ++ ':' :: (toString l.column).toList ++ " @".toList ++ (toString l.offset).toList

/-- `x += 1` on an `int`. -/
def inc (x : Int) : Outcome Int :=
  if x = 2147483647 then .ub "signed overflow" else .ok (x + 1)

/-- `allowed_chars` (Lexer.cpp.rl:40): `alnum | [_\-.~]`. -/
def allowed (c : Char) : Bool :=
  ('0' ≤ c && c ≤ '9') || ('A' ≤ c && c ≤ 'Z') || ('a' ≤ c && c ≤ 'z') || c = '_' || c = '-' || c = '.' || c = '~'

/-- Ragel's `space`: `[\t\v\f\n\r ]`. -/
def isSpace (c : Char) : Bool :=
  c = '\t' || c = '\n' || c = Char.ofNat 11 || c = Char.ofNat 12 || c = '\r' || c = ' '

/-- `track` on one character (Lexer.cpp.rl:24-32): the actions of `track_offset`, `track_column` and, for a newline, `track_line`, in this order. -/
def track (s : Lexer) (c : Char) : Outcome Lexer := do
  let offset ← inc s.location.offset
  let column ← inc s.location.column
  if c = '\n' then do
    let line ← inc s.location.line
    .ok { s with location := ⟨offset, line, 1⟩ }
  else .ok { s with location := ⟨offset, s.location.line, column⟩ }

/-- `MarkStart` (Lexer.cpp.rl:18-20). -/
def markStart (s : Lexer) : Lexer := { s with start := s.location }

/-- `emit` (Lexer.hpp:45-47). -/
def emit (s : Lexer) (k : Kind) (first last : Ptr) : Lexer :=
  { s with output := s.output ++ [⟨k, ⟨s.start, s.location⟩, first, last⟩] }

/-- `fmt::print`. -/
def print (s : Lexer) (t : List Char) : Lexer := { s with printed := s.printed ++ t }

/-- Back to the start state; its to-state action clears `ts`. -/
def restart (s : Lexer) : Lexer := { s with cs := .start, ts := none }

/-- `std::string_view str(ts, te - ts)` (Lexer.cpp.rl:83, 89): the difference of pointers into different buffers is undefined. `text`
gives the contents of the buffers. -/
def view (text : Nat → List Char) (ts : Option Ptr) (te : Ptr) : Outcome (Ptr × List Char) :=
  match ts with
  | some t => if t.buf = te.buf then .ok (t, ((text t.buf).drop t.idx).take (te.idx - t.idx)) else .ub "difference of unrelated pointers"
  | none => .ub "null token start"

/-- The action of `name` (Lexer.cpp.rl:82-86), `te` being the current position. -/
def finishName (text : Nat → List Char) (s : Lexer) (te : Ptr) : Outcome Lexer := do
  let (ts, str) ← view text s.ts te
  let s := print s ("(name ".toList ++ str ++ " :start ".toList ++ s.start.fmt ++ " :end ".toList ++ s.location.fmt ++ ")\n".toList)
  .ok (restart (emit s .NAME ts te))

/-- The action of `identifier` (Lexer.cpp.rl:88-92). -/
def finishIdent (text : Nat → List Char) (s : Lexer) (te : Ptr) : Outcome Lexer := do
  let (ts, str) ← view text s.ts te
  let s := print s ("(indentifier ".toList ++ str ++ " :start ".toList ++ s.start.fmt ++ " :end ".toList ++ s.location.fmt ++ ")\n".toList)
  .ok (restart (emit s .IDENTIFIER ts te))

/-- The action of `"\n"` (Lexer.cpp.rl:78-80). -/
def finishNewline (s : Lexer) : Lexer := restart (print s "(new-line :start)\n".toList)

/-- The action of `track_space+` (Lexer.cpp.rl:94-96). -/
def finishSpace (s : Lexer) : Lexer := restart (print s "(whitespace)\n".toList)

/-- The start state on character `c` at `p`: its from-state action sets `ts`. The parentheses cannot be continued, so their actions
(Lexer.cpp.rl:68-76) run on the character itself. A character no rule begins with leads to the error state. -/
def begin (s : Lexer) (p : Ptr) (c : Char) : Outcome Lexer :=
  let s := { s with ts := some p }
  if c = '(' then do
    let s ← track (markStart s) c
    let s := print s ("(lparen :start ".toList ++ s.location.fmt ++ ")\n".toList)
    .ok (restart (emit s .LPAREN p ⟨p.buf, p.idx + 1⟩))
  else if c = ')' then do
    let s ← track (markStart s) c
    let s := print s ("(rparen :start ".toList ++ s.location.fmt ++ ")\n".toList)
    .ok (restart (emit s .RPAREN p ⟨p.buf, p.idx + 1⟩))
  else if c = '$' then do
    let s ← track (markStart s) c
    .ok { s with cs := .dollar }
  else if allowed c then do
    let s ← track (markStart s) c
    .ok { s with cs := .name }
  else if c = '\n' then do
    let s ← track s c
    .ok { s with cs := .newline }
  else if isSpace c then do
    let s ← track s c
    .ok { s with cs := .space }
  else .ok { s with cs := .error }

/-- One character. A character that does not continue a token finishes it and is looked at again (`p--`). -/
def stepChar (text : Nat → List Char) (s : Lexer) (p : Ptr) (c : Char) : Outcome Lexer :=
  match s.cs with
  | .error => .ok s
  | .start => begin s p c
  | .name => if allowed c then track s c else do
      let s ← finishName text s p
      begin s p c
  | .dollar => if allowed c then do
      let s ← track s c
      .ok { s with cs := .ident }
    else .ok { s with cs := .error }
  | .ident => if allowed c then track s c else do
      let s ← finishIdent text s p
      begin s p c
  | .newline => if isSpace c then do
      let s ← track s c
      .ok { s with cs := .space }
    else begin (finishNewline s) p c
  | .space => if isSpace c then track s c else begin (finishSpace s) p c

/-- The characters of one call, the first at `p`. -/
def feed (text : Nat → List Char) (s : Lexer) (p : Ptr) : List Char → Outcome Lexer
  | [] => .ok s
  | c :: cs => do
    let s ← stepChar text s p c
    feed text s ⟨p.buf, p.idx + 1⟩ cs

/-- The end of the file: what can be finished is finished. -/
def finish (text : Nat → List Char) (s : Lexer) (p : Ptr) : Outcome Lexer :=
  match s.cs with
  | .name => finishName text s p
  | .ident => finishIdent text s p
  | .newline => .ok (finishNewline s)
  | .space => .ok (finishSpace s)
  | _ => .ok s

/-- `Lexer::lex(p, pe, eof)` (Lexer.cpp.rl:109-114) on the characters of buffer `p.buf` from index `p.idx` to `stop`; `eof` says whether `eof == pe`. -/
def lex (text : Nat → List Char) (s : Lexer) (p : Ptr) (stop : Nat) (eof : Bool) : Outcome Lexer := do
  let s ← feed text s p (((text p.buf).take stop).drop p.idx)
  if eof then finish text s ⟨p.buf, stop⟩ else .ok s

end Ab.Wast
