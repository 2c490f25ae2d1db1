import Verif.Model.EdnParser
/-!
What the EDN parser writes to standard error (edn/src/ab-edn-parser.cpp).

`AB_DEBUG` is defined in that file (line 1), so `AB_DBG_MSG` (util/include/Ab/Debug.hpp:53-57) prints; in the lexer it is not.
Simplifications: those of Model/EdnParser.lean, whose definitions these are otherwise; printing does not fail.
-/
namespace Ab.Edn.Print

/-- What was written, and how the call ended. -/
structure Pr (α : Type) where
  out : List Byte
  res : Outcome α

def Pr.bind {α β : Type} (p : Pr α) (f : α → Pr β) : Pr β :=
  match p.res with
  | .ok a => ⟨p.out ++ (f a).out, (f a).res⟩
  | .throw m => ⟨p.out, .throw m⟩
  | .trap m => ⟨p.out, .trap m⟩
  | .ub m => ⟨p.out, .ub m⟩
  | .fuel => ⟨p.out, .fuel⟩

/-- Without output. -/
def quiet {α : Type} (x : Outcome α) : Pr α := ⟨[], x⟩

def asBytes (s : String) : List Byte := s.toList.map (fun c => BitVec.ofNat 8 c.toNat)

/-- `AB_DBG_MSG("parsed string {}\n", str)` and the like. -/
def message (what : String) (text : List Byte) : List Byte := asBytes ("parsed " ++ what ++ " ") ++ text ++ [10#8]

mutual
/-- `parse_node` (ab-edn-parser.cpp:207-252), with `parse_string` (254-271, prints in 269), `parse_symbol` (273-289, 286) and
`parse_keyword` (291-307, 304). -/
def parseNode (L : Lib) : Nat → PS → Pr (PS × Option Node)
  | 0, _ => quiet .fuel
  | fuel + 1, s =>
    match s.toks with
    | [] => quiet (.ok (s, none))
    | t :: _ =>
      match t.kind with
      | .nil => quiet (.ok (s.adv, some .nil))
      | .bool b => quiet (.ok (s.adv, some (.bool b)))
      | .integer v => quiet (.ok (s.adv, some (.int v)))
      | .real v => quiet (.ok (s.adv, some (.real v)))
      | .lparen => (parseSeq L fuel true s.adv []).bind fun r => quiet (.ok (r.1, some (.list r.2)))
      | .lbracket => (parseSeq L fuel false s.adv []).bind fun r => quiet (.ok (r.1, some (.vec r.2)))
      | .lbrace => (parseMap L fuel s.adv []).bind fun r => quiet (.ok (r.1, some (.map r.2)))
      | .string => ⟨message "string" t.text, .ok (s.adv, some (.str t.text))⟩
      | .symbol => ⟨message "symbol" t.text, .ok ((parseSym s t.text).1, some (parseSym s t.text).2)⟩
      | .keyword => ⟨message "keyword" t.text, .ok ((parseSym s t.text).1, some (parseSym s t.text).2)⟩
      | .rparen | .rbrace | .rbracket =>
        quiet (.ok ({ s.adv with log := s.log ++ [⟨t.lo, t.hi, "unexepected closing delimiter."⟩] }, none))
/-- The loops of `parse_list` (ab-edn-parser.cpp:36-65) and `parse_vector` (77-106). -/
def parseSeq (L : Lib) : Nat → Bool → PS → List Node → Pr (PS × List Node)
  | 0, _, _, _ => quiet .fuel
  | fuel + 1, isList, s, acc =>
    match s.kind with
    | none => quiet (.ok (s.err (seqMsg isList none), acc))
    | some .rparen => quiet (.ok ((if isList then s else s.err (seqMsg isList (some .rparen))).adv, acc))
    | some .rbracket => quiet (.ok ((if isList then s.err (seqMsg isList (some .rbracket)) else s).adv, acc))
    | some .rbrace => quiet (.throw fmtBrace)
    | some _ => (parseNode L fuel s).bind fun r =>
      match r.2 with
      | some x => parseSeq L fuel isList r.1 (acc ++ [x])
      | none => parseSeq L fuel isList r.1 acc
/-- The loop of `parse_map` (ab-edn-parser.cpp:163-202), with `parse_map_k` (111-134) and `parse_map_v` (136-158) inlined. -/
def parseMap (L : Lib) : Nat → PS → List Entry → Pr (PS × List Entry)
  | 0, _, _ => quiet .fuel
  | fuel + 1, s, es =>
    match s.kind with
    | some .rbrace => quiet (.ok (s.adv, es))
    | some .rparen => quiet (.ok ((s.err "Unexpected ')' terminating map").adv, es))
    | some .rbracket => quiet (.ok ((s.err "Unexpected ']' terminating vector").adv, es))
    | none => parseMap L fuel ((s.err "Unexpected end of file while parsing map key").err "failed to parse map key") es
    | some _ => (parseNode L fuel s).bind fun r =>
      match r.2 with
      | none => parseMap L fuel (r.1.err "failed to parse map key") es
      | some k =>
        match r.1.kind with
        | none =>
          parseMap L fuel ((r.1.err "Unexpected end of file while parsing map value").err "key not followed by value in map") es
        | some .rbrace => quiet (.throw fmtBrace)
        | some .rparen => quiet (.throw fmtBrace)
        | some _ => (parseNode L fuel r.1).bind fun r =>
          match r.2 with
          | none => parseMap L fuel (r.1.err "key not followed by value in map") es
          | some v => (quiet (Node.hash L k)).bind fun _ =>
            parseMap L fuel (match findKey L es k with
              | some _ => r.1.err "duplicate key discovered in map"
              | none => r.1) (insertEntry L es (k, v))
end

/-- The loop of `parse` (ab-edn-parser.cpp:19-24). -/
def parseTop (L : Lib) : Nat → PS → List Node → Pr (PS × List Node)
  | 0, _, _ => quiet .fuel
  | fuel + 1, s, acc =>
    match s.toks with
    | [] => quiet (.ok (s, acc))
    | _ :: _ => (parseNode L fuel s).bind fun r =>
      match r.2 with
      | some x => parseTop L fuel r.1 (acc ++ [x])
      | none => parseTop L fuel r.1 acc

/-- `parse(globals, p, pe)` (ab-edn-parser.cpp:14-27). -/
def parse (L : Lib) (fuel : Nat) (tab : SymTab) (text : List Byte) : Pr Doc :=
  (quiet (lex L text)).bind fun r =>
    (parseTop L fuel ⟨r.1, r.2.pos, tab, []⟩ []).bind fun q => quiet (.ok ⟨q.2, q.1.log, r.2.breaks, q.1.tab⟩)

end Ab.Edn.Print
