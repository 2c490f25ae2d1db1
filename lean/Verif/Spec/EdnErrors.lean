import Verif.Model.EdnParser
/-! Which mistakes a reader of EDN should complain about, where and how: brackets are followed from left to right. -/
namespace Ab.Spec.EdnErrors

open Ab.Edn (Token Err)

/-- What is open: a list, a vector, a map before a key, a map before a value. -/
inductive Open where
  | list | vec | key | value
deriving DecidableEq

/-- What is open when a datum has been read: in a map keys and values alternate. -/
def afterDatum : List Open → List Open
  | .key :: st => .value :: st
  | .value :: st => .key :: st
  | st => st

/-- A complaint about a token. -/
def about (t : Token) (m : String) : Err := ⟨t.lo, t.hi, m⟩

/-- A complaint about the first of the tokens, or about the end of the text (at `e`). -/
def aboutNext (e : Nat) (ts : List Token) (m : String) : Err :=
  match ts with
  | t :: _ => about t m
  | [] => ⟨e, e, m⟩

/-- A list or vector that is not closed. -/
def unclosed (e : Nat) : Open → List Err
  | .list => [⟨e, e, "Unexpected end of file while parsing list"⟩]
  | .vec => [⟨e, e, "Unexpected end of file while parsing vector"⟩]
  | _ => []

/-- The complaints about the tokens, with `st` open, innermost first. -/
def mistakes (e : Nat) : List Open → List Token → List Err
  | st, [] => st.flatMap (unclosed e)
  | st, t :: ts =>
    match t.kind, st with
    -- openers
    | .lparen, st => mistakes e (.list :: afterDatum st) ts
    | .lbracket, st => mistakes e (.vec :: afterDatum st) ts
    | .lbrace, st => mistakes e (.key :: afterDatum st) ts
    -- the right closers
    | .rparen, .list :: st => mistakes e st ts
    | .rbracket, .vec :: st => mistakes e st ts
    | .rbrace, .key :: st => mistakes e st ts
    -- a closer of another kind closes what is open
    | .rparen, .vec :: st => about t "Unexpected ')' terminating vector" :: mistakes e st ts
    | .rparen, .key :: st => about t "Unexpected ')' terminating map" :: mistakes e st ts
    | .rbracket, .list :: st => about t "Unexpected ']' terminating list" :: mistakes e st ts
    | .rbracket, .key :: st => about t "Unexpected ']' terminating vector" :: mistakes e st ts
    -- a closer instead of a value
    | .rbracket, .value :: st => about t "unexepected closing delimiter." :: aboutNext e ts "key not followed by value in map" ::
        mistakes e (.key :: st) ts
    -- a closer where nothing is open
    | .rparen, [] | .rbracket, [] | .rbrace, [] => about t "unexepected closing delimiter." :: mistakes e [] ts
    -- the reader throws (C39)
    | .rparen, .value :: _ | .rbrace, .list :: _ | .rbrace, .vec :: _ | .rbrace, .value :: _ => []
    -- anything else
    | _, st => mistakes e (afterDatum st) ts

end Ab.Spec.EdnErrors
