import Verif.Basic
import Verif.Model.EdnReal
import Verif.Model.Types
/-!
Model of EDN trees and the symbol table (edn/include/Ab/Edn/Ir.hpp).

Simplifications, stated once:
* a node is a value, not a `shared_ptr`; the mutators (`set_value`, `push_back` on a shared node, ...)
  and metadata are not modelled (metadata takes no part in equality or hashing);
* `Set` (Ir.hpp:618-625) is left out: it has no members and comparing or hashing one aborts;
* a `double` is its 64-bit IEEE-754 pattern;
* a map is the list of its entries in the iteration order of the `std::unordered_map`; that order is not
  specified by C++, it is a parameter (`Lib.place`), as are the `std::hash` functions;
* `unordered_map::find` succeeds on an entry whose (cached) hash is equal and whose key compares equal,
  which is what libstdc++ does.
-/
namespace Ab.Edn

/-- An EDN node (Ir.hpp:44-60 kinds, 205-616 node classes). -/
inductive Node where
  | nil
  | bool (b : Bool)
  | int (v : U64)
  | real (v : U64)
  | sym (id : U64)
  | kw (id : U64)
  | chr (c : U64)
  | str (s : List Byte)
  | list (xs : List Node)
  | vec (xs : List Node)
  | map (es : List (Node × Node))
deriving Repr, Inhabited

/-- A map entry. -/
abbrev Entry := Node × Node

/-- What the C++ library supplies: `std::hash`, the iteration order of `std::unordered_map` after an
insertion, and the arithmetic of `double`, none of which is code of this repository. -/
structure Lib where
  hashKind   : U64 → U64
  hashBool   : Bool → U64
  hashLong   : U64 → U64
  hashDouble : U64 → U64
  hashString : List Byte → U64
  place      : List Entry → Entry → List Entry
  arith      : Arith U64

/-- `double` NaN: exponent all ones, mantissa not zero. -/
def isNaN (v : U64) : Bool := v &&& 0x7fffffffffffffff#64 > 0x7ff0000000000000#64

/-- `double` zero of either sign. -/
def isZero (v : U64) : Bool := v &&& 0x7fffffffffffffff#64 == 0#64

/-- `double` `operator==` (IEEE-754): NaN equals nothing, the two zeros are equal. -/
def dblEq (a b : U64) : Bool := !isNaN a && !isNaN b && (a == b || (isZero a && isZero b))

/-- `std::size_t(Kind::X)` (Ir.hpp:47-60). -/
def Node.kind : Node → U64
  | .nil => 0#64 | .bool _ => 1#64 | .int _ => 2#64 | .real _ => 3#64 | .sym _ => 4#64 | .kw _ => 5#64
  | .chr _ => 6#64 | .str _ => 7#64 | .list _ => 8#64 | .vec _ => 9#64 | .map _ => 10#64

/-- `Ab::hash(std::size_t(kind), x)` with `h = Ab::hash(x)` (HashUtilities.hpp:53-56, 26-29). -/
def hash2 (kind h : U64) : U64 := mix (mix HASH_SEED (hash64 kind)) h

mutual
/-- `node_hash` (Ir.hpp:758-783) and the `hash` members (217, 241, 264, 289, 314, 341, 369, 391, 434-440,
506-512, 594-601). A `Character` aborts (line 780-781). -/
def Node.hash (L : Lib) : Node → Outcome U64
  | .nil => .ok (L.hashKind 0#64)
  | .bool b => .ok (hash2 1#64 (L.hashBool b))
  | .int v => .ok (hash2 2#64 (L.hashLong v))
  | .real v => .ok (hash2 3#64 (L.hashDouble v))
  | .sym i => .ok (hash2 4#64 (hash64 i))
  | .kw i => .ok (hash2 5#64 (hash64 i))
  | .chr _ => .trap "unreachable"
  | .str s => .ok (hash2 7#64 (L.hashString s))
  | .list xs => hashList L xs (mix HASH_SEED 8#64)
  | .vec xs => hashList L xs (mix HASH_SEED 9#64)
  | .map es => hashEntries L es HASH_SEED
/-- The loop of `List::hash` and `Vector::hash` (Ir.hpp:436-438, 508-510). -/
def hashList (L : Lib) : List Node → U64 → Outcome U64
  | [], h => .ok h
  | x :: xs, h => do
    let hx ← Node.hash L x
    hashList L xs (mix h hx)
/-- The loop of `Map::hash` (Ir.hpp:596-599), in iteration order. -/
def hashEntries (L : Lib) : List (Node × Node) → U64 → Outcome U64
  | [], h => .ok h
  | e :: es, h => do
    let h ← hashEntry L e h
    hashEntries L es h
/-- Its body (Ir.hpp:597-598). -/
def hashEntry (L : Lib) : Node × Node → U64 → Outcome U64
  | (k, v), h => do
    let hk ← Node.hash L k
    let hv ← Node.hash L v
    pure (mix (mix h hk) hv)
end

/-- Do both nodes hash, and to the same number? -/
def sameHash (L : Lib) (a b : Node) : Bool :=
  match Node.hash L a, Node.hash L b with
  | .ok x, .ok y => x == y
  | _, _ => false

mutual
/-- `node_eq` (Ir.hpp:712-742) and the `operator==` members. -/
def Node.eq (L : Lib) : Node → Node → Bool
  | .nil, .nil => true
  | .bool a, .bool b => a == b
  | .int a, .int b => a == b
  | .real a, .real b => dblEq a b
  | .sym a, .sym b => a == b
  | .kw a, .kw b => a == b
  | .chr a, .chr b => a == b
  | .str a, .str b => a == b
  | .list xs, .list ys => eqList L xs ys
  | .vec xs, .vec ys => eqList L xs ys
  | .map es, .map fs => es.length == fs.length && eqEntries L es fs
  | _, _ => false
/-- `List::operator==`, `Vector::operator==` (Ir.hpp:419-430, 491-502): sizes, then element by element. -/
def eqList (L : Lib) : List Node → List Node → Bool
  | [], [] => true
  | x :: xs, y :: ys => Node.eq L x y && eqList L xs ys
  | _, _ => false
/-- The loop of `Map::operator==` (Ir.hpp:571-589). -/
def eqEntries (L : Lib) : List (Node × Node) → List (Node × Node) → Bool
  | [], _ => true
  | e :: es, fs => eqEntry L e fs && eqEntries L es fs
/-- Its body: find the key in the other map, compare the values. -/
def eqEntry (L : Lib) : Node × Node → List (Node × Node) → Bool
  | (k, v), fs =>
    match fs.find? (fun f => sameHash L k f.1 && Node.eq L k f.1) with
    | none => false
    | some f => Node.eq L v f.2
end

/-- `unordered_map::find` through `Map::find` (Ir.hpp:552-554). -/
def findKey (L : Lib) (es : List Entry) (k : Node) : Option Entry :=
  es.find? (fun f => sameHash L k f.1 && Node.eq L k f.1)

/-- `unordered_map::insert` through `Map::insert` (Ir.hpp:556-558): an existing entry is kept. -/
def insertEntry (L : Lib) (es : List Entry) (e : Entry) : List Entry :=
  match findKey L es e.1 with
  | some _ => es
  | none => L.place es e

/-- `SymbolTable` (Ir.hpp:847-897): `next_` and the two maps. -/
structure SymTab where
  next    : U64
  symbols : List (List Byte × U64)
  strings : List (U64 × List Byte)
deriving Repr, DecidableEq

/-- `SymbolTable()` (Ir.hpp:849, 887). -/
def SymTab.empty : SymTab := ⟨0#64, [], []⟩

/-- `intern` (Ir.hpp:858-872). -/
def SymTab.intern (t : SymTab) (s : List Byte) : SymTab × U64 :=
  match t.symbols.find? (fun p => p.1 == s) with
  | some p => (t, p.2)
  | none =>
    -- `unordered_map::insert` keeps an existing entry
    let strings := match t.strings.find? (fun p => p.1 == t.next) with
      | some _ => t.strings
      | none => t.strings ++ [(t.next, s)]
    (⟨t.next + 1#64, t.symbols ++ [(s, t.next)], strings⟩, t.next)

/-- `id` (Ir.hpp:877). -/
def SymTab.id (t : SymTab) (s : List Byte) : Outcome U64 :=
  match t.symbols.find? (fun p => p.1 == s) with
  | some p => .ok p.2
  | none => .throw "out_of_range"

/-- `interned` (Ir.hpp:881). -/
def SymTab.interned (t : SymTab) (s : List Byte) : Bool := t.symbols.any (fun p => p.1 == s)

/-- `string` (Ir.hpp:883). -/
def SymTab.string (t : SymTab) (i : U64) : Outcome (List Byte) :=
  match t.strings.find? (fun p => p.1 == i) with
  | some p => .ok p.2
  | none => .throw "out_of_range"

/-- A sequence of `intern` calls: the final table and the returned ids. -/
def SymTab.internAll (t : SymTab) : List (List Byte) → SymTab × List U64
  | [] => (t, [])
  | s :: ss =>
    let (t, i) := t.intern s
    let (t, is) := t.internAll ss
    (t, i :: is)

end Ab.Edn
