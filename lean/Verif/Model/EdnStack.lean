import Verif.Model.EdnParser
/-!
The EDN parser on a finite stack (edn/src/ab-edn-parser.cpp).

`parse_node` (207-252) calls `parse_list` (29-66), `parse_vector` (70-107) or `parse_map` (163-204) for an opening delimiter, and these
call `parse_node` (`parse_map` through `parse_map_k` and `parse_map_v`) for what is in the collection: one pair of frames
(three for a map) for each open collection. Nothing limits the depth, and overrunning the stack is undefined behaviour.

Model: `room` is the number of collections for which there is still stack. Simplifications: all frames are the same size – the number of
collections that fit is what the properties quantify over – and the stack that hashing, comparing and destroying nested nodes takes
is not counted here. Otherwise the definitions are those of Model/EdnParser.lean.
-/
namespace Ab.Edn

/-- A call for which there is no stack left. -/
def stackUb : String := "stack overflow"

mutual
/-- `parse_node` (ab-edn-parser.cpp:207-252). `none` is `{false, nullptr}`. -/
def parseNodeD (L : Lib) : Nat → Nat → PS → Outcome (PS × Option Node)
  | _, 0, _ => .fuel
  | room, fuel + 1, s =>
    match s.toks with
    | [] => .ok (s, none)
    | t :: _ =>
      match t.kind with
      | .nil => .ok (s.adv, some .nil)
      | .bool b => .ok (s.adv, some (.bool b))
      | .integer v => .ok (s.adv, some (.int v))
      | .real v => .ok (s.adv, some (.real v))
      | .lparen =>
        match room with
        | 0 => .ub stackUb
        | room + 1 => do
          let (s, xs) ← parseSeqD L room fuel true s.adv []
          pure (s, some (.list xs))
      | .lbracket =>
        match room with
        | 0 => .ub stackUb
        | room + 1 => do
          let (s, xs) ← parseSeqD L room fuel false s.adv []
          pure (s, some (.vec xs))
      | .lbrace =>
        match room with
        | 0 => .ub stackUb
        | room + 1 => do
          let (s, es) ← parseMapD L room fuel s.adv []
          pure (s, some (.map es))
      | .string => .ok (s.adv, some (.str t.text))
      | .symbol => .ok ((parseSym s t.text).1, some (parseSym s t.text).2)
      | .keyword => .ok ((parseSym s t.text).1, some (parseSym s t.text).2)
      | .rparen | .rbrace | .rbracket =>
        .ok ({ s.adv with log := s.log ++ [⟨t.lo, t.hi, "unexepected closing delimiter."⟩] }, none)
/-- The loops of `parse_list` (ab-edn-parser.cpp:36-65) and `parse_vector` (77-106). -/
def parseSeqD (L : Lib) : Nat → Nat → Bool → PS → List Node → Outcome (PS × List Node)
  | _, 0, _, _, _ => .fuel
  | room, fuel + 1, isList, s, acc =>
    match s.kind with
    | none => .ok (s.err (seqMsg isList none), acc)
    | some .rparen => .ok ((if isList then s else s.err (seqMsg isList (some .rparen))).adv, acc)
    | some .rbracket => .ok ((if isList then s.err (seqMsg isList (some .rbracket)) else s).adv, acc)
    | some .rbrace => .throw fmtBrace -- "Unexpected '}' terminating list" (50), "… vector" (90)
    | some _ => do
      let (s, r) ← parseNodeD L room fuel s
      match r with
      | some x => parseSeqD L room fuel isList s (acc ++ [x])
      | none => parseSeqD L room fuel isList s acc
/-- The loop of `parse_map` (ab-edn-parser.cpp:163-202), with `parse_map_k` (111-134) and `parse_map_v`
(136-158) inlined. -/
def parseMapD (L : Lib) : Nat → Nat → PS → List Entry → Outcome (PS × List Entry)
  | _, 0, _, _ => .fuel
  | room, fuel + 1, s, es =>
    match s.kind with
    | some .rbrace => .ok (s.adv, es)
    | some .rparen => .ok ((s.err "Unexpected ')' terminating map").adv, es)
    | some .rbracket => .ok ((s.err "Unexpected ']' terminating vector").adv, es)
    | none =>
      -- parse_map_k at END fails without consuming
      parseMapD L room fuel ((s.err "Unexpected end of file while parsing map key").err "failed to parse map key") es
    | some _ => do
      let (s, k) ← parseNodeD L room fuel s
      match k with
      | none => parseMapD L room fuel (s.err "failed to parse map key") es
      | some k =>
        match s.kind with
        | none =>
          parseMapD L room fuel
            ((s.err "Unexpected end of file while parsing map value").err "key not followed by value in map") es
        | some .rbrace => .throw fmtBrace -- "Unexpected '}' while parsing map value" (146)
        | some .rparen => .throw fmtBrace -- the same message (149)
        | some _ => do
          let (s, v) ← parseNodeD L room fuel s
          match v with
          | none => parseMapD L room fuel (s.err "key not followed by value in map") es
          | some v => do
            -- hashing the key may abort (Ir.hpp:780)
            let _ ← Node.hash L k
            let s := match findKey L es k with
              | some _ => s.err "duplicate key discovered in map"
              | none => s
            parseMapD L room fuel s (insertEntry L es (k, v))
end

/-- The loop of `parse` (ab-edn-parser.cpp:19-24). -/
def parseTopD (L : Lib) : Nat → Nat → PS → List Node → Outcome (PS × List Node)
  | _, 0, _, _ => .fuel
  | room, fuel + 1, s, acc =>
    match s.toks with
    | [] => .ok (s, acc)
    | _ :: _ => do
      let (s, r) ← parseNodeD L room fuel s
      match r with
      | some x => parseTopD L room fuel s (acc ++ [x])
      | none => parseTopD L room fuel s acc

/-- `parse(globals, p, pe)` (ab-edn-parser.cpp:14-27) with stack for `room` open collections. -/
def parseD (L : Lib) (room fuel : Nat) (tab : SymTab) (text : List Byte) : Outcome Doc := do
  let (toks, l) ← lex L text
  let (s, nodes) ← parseTopD L room fuel ⟨toks, l.pos, tab, []⟩ []
  pure ⟨nodes, s.log, l.breaks, s.tab⟩

end Ab.Edn
