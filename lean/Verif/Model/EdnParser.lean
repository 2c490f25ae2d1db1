import Verif.Model.EdnLexer
/-!
Model of the EDN parser (edn/src/ab-edn-parser.cpp).

Simplification: the tokens are lexed before parsing starts.  The C++ pulls them one at a time, but the
lexer does not depend on the parser and the parser reads every token up to END unless it throws before, so the
results are the same, except that for a text with both a throw and a later undefined integer literal the
model shows only the latter.
-/
namespace Ab.Edn

/-- A logged error: source range and message (Error.hpp:14-41). -/
structure Err where
  lo  : Nat
  hi  : Nat
  msg : String
deriving Repr, DecidableEq

/-- Parser state: tokens not yet consumed, where END is, the symbol table, the error log. -/
structure PS where
  toks : List Token
  eof  : Nat
  tab  : SymTab
  log  : List Err

/-- The current token's kind; `none` is END (`it == TOKEN_END`). -/
def PS.kind (s : PS) : Option Kind := s.toks.head?.map (·.kind)

/-- `++it`. -/
def PS.adv (s : PS) : PS := { s with toks := s.toks.tail }

/-- `log.error(it->src_range(), msg)`. -/
def PS.err (s : PS) (msg : String) : PS :=
  match s.toks with
  | t :: _ => { s with log := s.log ++ [⟨t.lo, t.hi, msg⟩] }
  | [] => { s with log := s.log ++ [⟨s.eof, s.eof, msg⟩] }

/-- `parse_symbol`, `parse_keyword` (ab-edn-parser.cpp:270-307): both intern the token's text and build a
`Symbol`. -/
def parseSym (s : PS) (text : List Byte) : PS × Node :=
  let r := s.tab.intern text
  ({ s.adv with tab := r.1 }, .sym r.2)

/-- `fmt::format(msg)` without arguments: doubled braces stand for one, a single one is a `format_error` (fmt's format
string syntax). -/
def fmtFormat : List Char → Outcome (List Char)
  | [] => .ok []
  | '}' :: '}' :: cs => do pure ('}' :: (← fmtFormat cs))
  | '}' :: _ => .throw "unmatched '}' in format string"
  | '{' :: '{' :: cs => do pure ('{' :: (← fmtFormat cs))
  | '{' :: _ => .throw "argument index out of range"
  | c :: cs => do pure (c :: (← fmtFormat cs))

/-- `ErrorLog::error` (Error.hpp:28-32) uses its message as a format string: the messages of the parser that contain a brace
make it throw `fmt::format_error`; the others are logged as they are (checked in Props/EdnParse.lean). -/
def fmtBrace : String := "unmatched '}' in format string"

/-- The message for an unexpected end or closer in a list or vector (ab-edn-parser.cpp:38, 55, 78,
95); the messages for `}` (50, 90) throw. -/
def seqMsg (isList : Bool) : Option Kind → String
  | none => if isList then "Unexpected end of file while parsing list"
            else "Unexpected end of file while parsing vector"
  | some .rbracket => "Unexpected ']' terminating list"
  | some _ => "Unexpected ')' terminating vector"

mutual
/-- `parse_node` (ab-edn-parser.cpp:207-252). `none` is `{false, nullptr}`. -/
def parseNode (L : Lib) : Nat → PS → Outcome (PS × Option Node)
  | 0, _ => .fuel
  | fuel + 1, s =>
    match s.toks with
    | [] => .ok (s, none)
    | t :: _ =>
      match t.kind with
      | .nil => .ok (s.adv, some .nil)
      | .bool b => .ok (s.adv, some (.bool b))
      | .integer v => .ok (s.adv, some (.int v))
      | .real v => .ok (s.adv, some (.real v))
      | .lparen => do
        let (s, xs) ← parseSeq L fuel true s.adv []
        pure (s, some (.list xs))
      | .lbracket => do
        let (s, xs) ← parseSeq L fuel false s.adv []
        pure (s, some (.vec xs))
      | .lbrace => do
        let (s, es) ← parseMap L fuel s.adv []
        pure (s, some (.map es))
      | .string => .ok (s.adv, some (.str t.text))
      | .symbol => .ok ((parseSym s t.text).1, some (parseSym s t.text).2)
      | .keyword => .ok ((parseSym s t.text).1, some (parseSym s t.text).2)
      | .rparen | .rbrace | .rbracket =>
        .ok ({ s.adv with log := s.log ++ [⟨t.lo, t.hi, "unexepected closing delimiter."⟩] }, none)
/-- The loops of `parse_list` (ab-edn-parser.cpp:36-65) and `parse_vector` (77-106). -/
def parseSeq (L : Lib) : Nat → Bool → PS → List Node → Outcome (PS × List Node)
  | 0, _, _, _ => .fuel
  | fuel + 1, isList, s, acc =>
    match s.kind with
    | none => .ok (s.err (seqMsg isList none), acc)
    | some .rparen => .ok ((if isList then s else s.err (seqMsg isList (some .rparen))).adv, acc)
    | some .rbracket => .ok ((if isList then s.err (seqMsg isList (some .rbracket)) else s).adv, acc)
    | some .rbrace => .throw fmtBrace -- "Unexpected '}' terminating list" (50), "… vector" (90)
    | some _ => do
      let (s, r) ← parseNode L fuel s
      match r with
      | some x => parseSeq L fuel isList s (acc ++ [x])
      | none => parseSeq L fuel isList s acc
/-- The loop of `parse_map` (ab-edn-parser.cpp:163-202), with `parse_map_k` (111-134) and `parse_map_v`
(136-158) inlined. -/
def parseMap (L : Lib) : Nat → PS → List Entry → Outcome (PS × List Entry)
  | 0, _, _ => .fuel
  | fuel + 1, s, es =>
    match s.kind with
    | some .rbrace => .ok (s.adv, es)
    | some .rparen => .ok ((s.err "Unexpected ')' terminating map").adv, es)
    | some .rbracket => .ok ((s.err "Unexpected ']' terminating vector").adv, es)
    | none =>
      -- parse_map_k at END fails without consuming
      parseMap L fuel ((s.err "Unexpected end of file while parsing map key").err "failed to parse map key") es
    | some _ => do
      let (s, k) ← parseNode L fuel s
      match k with
      | none => parseMap L fuel (s.err "failed to parse map key") es
      | some k =>
        match s.kind with
        | none =>
          parseMap L fuel
            ((s.err "Unexpected end of file while parsing map value").err "key not followed by value in map") es
        | some .rbrace => .throw fmtBrace -- "Unexpected '}' while parsing map value" (146)
        | some .rparen => .throw fmtBrace -- the same message (149)
        | some _ => do
          let (s, v) ← parseNode L fuel s
          match v with
          | none => parseMap L fuel (s.err "key not followed by value in map") es
          | some v => do
            -- hashing the key may abort (Ir.hpp:780)
            let _ ← Node.hash L k
            let s := match findKey L es k with
              | some _ => s.err "duplicate key discovered in map"
              | none => s
            parseMap L fuel s (insertEntry L es (k, v))
end

/-- The loop of `parse` (ab-edn-parser.cpp:19-24). -/
def parseTop (L : Lib) : Nat → PS → List Node → Outcome (PS × List Node)
  | 0, _, _ => .fuel
  | fuel + 1, s, acc =>
    match s.toks with
    | [] => .ok (s, acc)
    | _ :: _ => do
      let (s, r) ← parseNode L fuel s
      match r with
      | some x => parseTop L fuel s (acc ++ [x])
      | none => parseTop L fuel s acc

/-- `Document` (Parser.hpp:17-23) and the symbol table afterwards. -/
structure Doc where
  nodes  : List Node
  errors : List Err
  breaks : List Nat
  tab    : SymTab

/-- `parse(globals, p, pe)` (ab-edn-parser.cpp:14-27). The fuel bounds the nesting of calls and loops. -/
def parse (L : Lib) (fuel : Nat) (tab : SymTab) (text : List Byte) : Outcome Doc := do
  let (toks, l) ← lex L text
  let (s, nodes) ← parseTop L fuel ⟨toks, l.pos, tab, []⟩ []
  pure ⟨nodes, s.log, l.breaks, s.tab⟩

end Ab.Edn
