import Verif.Model.Regex
import Verif.Model.EdnNode
/-!
Model of the EDN lexer (edn/src/ab-edn-lexer.cpp.rl, edn/include/Ab/Edn/{Lexer,Token}.hpp).

Simplifications: the whole text is in memory (`pe == eof`), as with every constructor the repository
calls; positions are naturals; the arithmetic of `double` is a parameter (`Lib.arith`).
-/
namespace Ab.Edn

open Re

/-- `parse_integer` (ab-edn-lexer.cpp.rl:27-57), its digit loop: `val *= 10; val += fc - '0'` on an
`intptr_t`, whose overflow is undefined. `d` tells whether a digit was seen. -/
def digitLoop : List Byte → Int → Bool → Outcome (Option Int)
  | [], val, d => .ok (if d then some val else none)
  | c :: cs, val, _ =>
    if 48#8 ≤ c ∧ c ≤ 57#8 then
      let v := val * 10
      if 2^63 ≤ v then .ub "signed overflow"
      else
        let v := v + (c.toNat - 48 : Int)
        if 2^63 ≤ v then .ub "signed overflow" else digitLoop cs v true
    else .ok none

/-- `parse_integer(p, pe)` on the given text: aborts unless the text is an optional sign and digits. -/
def parseInteger (s : List Byte) : Outcome U64 := do
  let (neg, rest) := match s with
    | 45#8 :: r => (true, r)      -- '-'
    | 43#8 :: r => (false, r)     -- '+'
    | r => (false, r)
  let v ← digitLoop rest 0 false
  match v with
  | none => .trap "failed to parse integer"
  | some v => pure (BitVec.ofInt 64 (if neg then -v else v))

/-! ### Character classes and token rules (ab-edn-lexer.cpp.rl:145-229) -/

/-- Ragel `digit`. -/
def isDigit (b : Byte) : Bool := decide (48#8 ≤ b ∧ b ≤ 57#8)
/-- Ragel `alpha`. -/
def isAlpha (b : Byte) : Bool := decide ((65#8 ≤ b ∧ b ≤ 90#8) ∨ (97#8 ≤ b ∧ b ≤ 122#8))
/-- Ragel `alnum`. -/
def isAlnum (b : Byte) : Bool := isAlpha b || isDigit b
/-- `num_char`: `.` `+` `-` (line 183). -/
def isNumChar (b : Byte) : Bool := b == 46#8 || b == 43#8 || b == 45#8
/-- `inner_only_char`: `#` `:` (line 185). -/
def isInner (b : Byte) : Bool := b == 35#8 || b == 58#8
/-- `misc_char`: `. * ! _ ? $ % & = <` (line 187). -/
def isMisc (b : Byte) : Bool :=
  b == 46#8 || b == 42#8 || b == 33#8 || b == 95#8 || b == 63#8 || b == 36#8 || b == 37#8 || b == 38#8 ||
  b == 61#8 || b == 60#8
/-- `special_char` (line 189). -/
def isSpecial (b : Byte) : Bool := isNumChar b || isInner b || isMisc b
/-- `name_char` (line 191). -/
def isNameChar (b : Byte) : Bool := isAlnum b || isSpecial b
/-- `ws` (line 161): space, tab, comma, newline. -/
def isWs (b : Byte) : Bool := b == 32#8 || b == 9#8 || b == 44#8 || b == 10#8

/-- `digit`. -/
def digitRe : Re := .cls isDigit
/-- `( '+' | '-' )?`. -/
def signRe : Re := opt (.alt (ch 43) (ch 45))
/-- `name` (lines 194-200). -/
def nameRe : Re :=
  .alt (.seq (.cls (fun b => isAlpha b || isMisc b)) (.star (.cls isNameChar)))
    (.seq (.cls isNumChar) (.seq (.cls (fun b => isAlpha b || isSpecial b)) (.star (.cls isNameChar))))
/-- `symbol` (line 204). -/
def symbolRe : Re := .seq (opt (.seq nameRe (ch 47))) nameRe
/-- `keyword` (line 206). -/
def keywordRe : Re := .seq (ch 58) symbolRe
/-- `integer` (line 224). -/
def integerRe : Re :=
  .seq signRe (.alt (ch 48) (.seq (.cls (fun b => decide (49#8 ≤ b ∧ b ≤ 57#8))) (.star digitRe)))
/-- `real_pt` (226). -/
def realPtRe : Re := .seq (ch 46) (plus digitRe)
/-- `real_ex` (228). -/
def realExRe : Re := .seq (.alt (ch 101) (ch 69)) (.seq signRe (plus digitRe))
/-- `real` (230). -/
def realRe : Re :=
  .seq signRe (.seq (plus digitRe) (.alt realPtRe (.alt realExRe (.seq realPtRe realExRe))))
/-- `string` (177-181): the body class excludes both kinds of quote; an escape is a backslash and one of
`t n r \ " '`. -/
def stringRe : Re :=
  .seq (ch 34) (.seq (.star (.alt (.cls (fun b => !(b == 34#8 || b == 39#8)))
    (.seq (ch 92) (.cls (fun b => b == 116#8 || b == 110#8 || b == 114#8 || b == 92#8 || b == 34#8 || b == 39#8)))))
    (ch 34))
/-- `whitespace` (163). -/
def wsRe : Re := plus (.cls isWs)
/-- `comment` (159). -/
def commentRe : Re := .seq (ch 59) (.seq (.star (.cls (fun b => !(b == 10#8)))) (ch 10))

/-- The alternatives of the scanner. -/
inductive Rule where
  | nil | true | false | real | integer
  | lparen | rparen | lbracket | rbracket | lbrace | rbrace
  | keyword | symbol | string | whitespace | comment
deriving Repr, DecidableEq

/-- `main` (232-349), in source order. -/
def rules : List (Rule × Re) :=
  [(.nil, lit [110, 105, 108]), (.true, lit [116, 114, 117, 101]), (.false, lit [102, 97, 108, 115, 101]),
   (.real, realRe), (.integer, integerRe),
   (.lparen, ch 40), (.rparen, ch 41), (.lbracket, ch 91), (.rbracket, ch 93), (.lbrace, ch 123),
   (.rbrace, ch 125), (.keyword, keywordRe), (.symbol, symbolRe), (.string, stringRe),
   (.whitespace, wsRe), (.comment, commentRe)]

/-- Token kinds the lexer produces, with their data (Token.hpp:20-63). -/
inductive Kind where
  | nil
  | bool (b : Bool)
  | integer (v : U64)
  | real (v : U64)
  | string | symbol | keyword
  | lparen | rparen | lbracket | rbracket | lbrace | rbrace
deriving Repr, DecidableEq

/-- A token: kind, text, and source range (Token.hpp:65-104). -/
structure Token where
  kind : Kind
  text : List Byte
  lo   : Nat
  hi   : Nat
deriving Repr, DecidableEq

/-- Lexer state (Lexer.hpp:57-72): what is left of the input, the position, whether the machine is in its
error state, and the line breaks recorded so far. -/
structure Lex where
  rest   : List Byte
  pos    : Nat
  err    : Bool
  breaks : List Nat
deriving Repr, DecidableEq

/-- A lexer over a text (ab-edn-lexer.cpp.rl:354-371). -/
def Lex.start (s : List Byte) : Lex := ⟨s, 0, false, []⟩

/-- `record_br(p - block_start + 1)` for each newline of a skipped lexeme (lines 146-149). -/
def newlines (pos : Nat) : List Byte → List Nat
  | [] => []
  | b :: bs => if b = 10#8 then (pos + 1) :: newlines (pos + 1) bs else newlines (pos + 1) bs

/-- The token a rule produces (232-337); `none` for whitespace and comments. -/
def tokenOf (L : Lib) (r : Rule) (text : List Byte) : Outcome (Option Kind) :=
  match r with
  | .nil => .ok (some .nil)
  | .true => .ok (some (.bool Bool.true))
  | .false => .ok (some (.bool Bool.false))
  | .real => do
    let v ← parseReal L.arith text
    pure (some (.real v))
  | .integer => do
    let v ← parseInteger text
    pure (some (.integer v))
  | .lparen => .ok (some .lparen)
  | .rparen => .ok (some .rparen)
  | .lbracket => .ok (some .lbracket)
  | .rbracket => .ok (some .rbracket)
  | .lbrace => .ok (some .lbrace)
  | .rbrace => .ok (some .rbrace)
  | .keyword => .ok (some .keyword)
  | .symbol => .ok (some .symbol)
  | .string => .ok (some .string)
  | .whitespace | .comment => .ok none

/-- `Lexer::next` (ab-edn-lexer.cpp.rl:376-405); `none` is the END token, at `pos` of the state. The fuel
counts lexemes skipped. -/
def next (L : Lib) : Nat → Lex → Outcome (Option Token × Lex)
  | 0, _ => .fuel
  | fuel + 1, l =>
    if l.rest = [] ∨ l.err then .ok (none, l)
    else
      let s := scan rules l.rest
      match s.best with
      | none => .ok (none, { l with rest := l.rest.drop s.read, pos := l.pos + s.read, err := s.stuck })
      | some (r, n) => do
        let text := l.rest.take n
        let k ← tokenOf L r text
        match k with
        | some k => pure (some ⟨k, text, l.pos, l.pos + n⟩, { l with rest := l.rest.drop n, pos := l.pos + n })
        | none =>
          next L fuel { l with rest := l.rest.drop n, pos := l.pos + n, breaks := l.breaks ++ newlines l.pos text }

/-- Calling `next` until END (`TokenIter`, Lexer.hpp:78-107): the tokens and the final state. -/
def lexAll (L : Lib) : Nat → Lex → Outcome (List Token × Lex)
  | 0, _ => .fuel
  | fuel + 1, l => do
    let (t, l') ← next L (l.rest.length + 1) l
    match t with
    | none => pure ([], l')
    | some t => do
      let (ts, l'') ← lexAll L fuel l'
      pure (t :: ts, l'')

/-- The tokens of a text, and the state at END. -/
def lex (L : Lib) (s : List Byte) : Outcome (List Token × Lex) := lexAll L (s.length + 1) (Lex.start s)

end Ab.Edn
