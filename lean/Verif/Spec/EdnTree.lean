import Verif.Spec.Edn
import Verif.Spec.EdnGrammar
/-! EDN data as a user writes it: trees with names, their text, and what it means that a node read from
the text is the tree. -/
namespace Ab.Spec

open Edn Re

/-- A tree of nil, booleans, integers, reals (given by their text), strings, symbols, keywords, lists, vectors and maps. -/
inductive Tree where
  | nil
  | bool (b : Bool)
  | int (v : Int)
  | real (text : List Byte)
  | str (s : List Byte)
  | sym (name : List Byte)
  | kw (name : List Byte)
  | list (xs : List Tree)
  | vec (xs : List Tree)
  | map (es : List (Tree × Tree))
deriving Inhabited

/-- Decimal digits of a number. -/
def decimalNat (n : Nat) : List Byte :=
  if n < 10 then [BitVec.ofNat 8 (48 + n)] else decimalNat (n / 10) ++ [BitVec.ofNat 8 (48 + n % 10)]

/-- Decimal notation of an integer. -/
def decimal (v : Int) : List Byte := if v < 0 then 45#8 :: decimalNat v.natAbs else decimalNat v.natAbs

/-- The text of a string, with a backslash before every double quote, apostrophe and backslash. -/
def escapedText : List Byte → List Byte
  | [] => []
  | b :: s => if b ∈ ascii "\"'\\" then 92#8 :: b :: escapedText s else b :: escapedText s

/-- A string as it is written. -/
def quotedText (s : List Byte) : List Byte := ascii "\"" ++ escapedText s ++ ascii "\""

mutual
/-- The words of a tree, in order. -/
def words : Tree → List (List Byte)
  | .nil => [[110, 105, 108]]
  | .bool true => [[116, 114, 117, 101]]
  | .bool false => [[102, 97, 108, 115, 101]]
  | .int v => [decimal v]
  | .real w => [w]
  | .str s => [quotedText s]
  | .sym name => [name]
  | .kw name => [58#8 :: name]
  | .list xs => [40] :: wordsList xs ++ [[41]]
  | .vec xs => [91] :: wordsList xs ++ [[93]]
  | .map es => [123] :: wordsEntries es ++ [[125]]
def wordsList : List Tree → List (List Byte)
  | [] => []
  | x :: xs => words x ++ wordsList xs
def wordsEntries : List (Tree × Tree) → List (List Byte)
  | [] => []
  | e :: es => wordsEntry e ++ wordsEntries es
def wordsEntry : Tree × Tree → List (List Byte)
  | (k, v) => words k ++ words v
end

/-- Words separated by single spaces. -/
def spaced : List (List Byte) → List Byte
  | [] => []
  | [w] => w
  | w :: ws => w ++ 32#8 :: spaced ws

/-- The text of a document. -/
def textOf (ts : List Tree) : List Byte := spaced (wordsList ts)

/-- Two texts are reals that are read as the same number, with the arithmetic `A` (the two zeros are one number). -/
def SameReal (A : Arith U64) (w w' : List Byte) : Prop :=
  ∃ neg ints frac ex neg' ints' frac' ex', RealText w neg ints frac ex ∧ RealText w' neg' ints' frac' ex' ∧
    SameDouble (realIn A neg ints frac ex) (realIn A neg' ints' frac' ex')

mutual
/-- Two trees are the same data: equal up to the order of map entries and the texts of reals. `A` is the arithmetic reals are
read with. -/
inductive TSame (A : Arith U64) : Tree → Tree → Prop
  | nil : TSame A .nil .nil
  | bool (b) : TSame A (.bool b) (.bool b)
  | int (v) : TSame A (.int v) (.int v)
  | real {w w'} : SameReal A w w' → TSame A (.real w) (.real w')
  | str (s) : TSame A (.str s) (.str s)
  | sym (n) : TSame A (.sym n) (.sym n)
  | kw (n) : TSame A (.kw n) (.kw n)
  | list {xs ys} : TSameList A xs ys → TSame A (.list xs) (.list ys)
  | vec {xs ys} : TSameList A xs ys → TSame A (.vec xs) (.vec ys)
  | map {es fs gs} : TSameEntries A es gs → gs.Perm fs → TSame A (.map es) (.map fs)
inductive TSameList (A : Arith U64) : List Tree → List Tree → Prop
  | nil : TSameList A [] []
  | cons {x y xs ys} : TSame A x y → TSameList A xs ys → TSameList A (x :: xs) (y :: ys)
inductive TSameEntries (A : Arith U64) : List (Tree × Tree) → List (Tree × Tree) → Prop
  | nil : TSameEntries A [] []
  | cons {k v k' v' es fs} : TSame A k k' → TSame A v v' → TSameEntries A es fs →
      TSameEntries A ((k, v) :: es) ((k', v') :: fs)
end

/-- A name that is a symbol of the grammar and not one of the three literals. -/
def IsSymbol (name : List Byte) : Prop :=
  SymbolText name ∧ name ≠ ascii "nil" ∧ name ≠ ascii "true" ∧ name ≠ ascii "false"

/-- `m` occurs in `t` (or is `t`). -/
inductive TSub : Tree → Tree → Prop
  | refl (t) : TSub t t
  | list {m x xs} : x ∈ xs → TSub m x → TSub m (.list xs)
  | vec {m x xs} : x ∈ xs → TSub m x → TSub m (.vec xs)
  | key {m e es} : e ∈ es → TSub m e.1 → TSub m (.map es)
  | val {m e es} : e ∈ es → TSub m e.2 → TSub m (.map es)

/-- Trees that can be written: integers smaller than 2^63 in magnitude, reals of the grammar with exponents smaller than
2^63 in magnitude, strings that do not end in a backslash, names the grammar allows, and no map with the same key twice
(`A` is the arithmetic reals are read with: different texts may be the same number). -/
inductive Writable (A : Arith U64) : Tree → Prop
  | nil : Writable A .nil
  | bool (b) : Writable A (.bool b)
  | int {v} : v.natAbs < 2^63 → Writable A (.int v)
  | real {w neg ints frac ex} : RealText w neg ints frac ex → ex.natAbs < 2^63 → Writable A (.real w)
  | str {s} : (∀ u, s ≠ u ++ ascii "\\") → Writable A (.str s)
  | sym {n} : IsSymbol n → Writable A (.sym n)
  | kw {n} : SymbolText n → Writable A (.kw n)
  | list {xs} : (∀ x ∈ xs, Writable A x) → Writable A (.list xs)
  | vec {xs} : (∀ x ∈ xs, Writable A x) → Writable A (.vec xs)
  | map {es} : (∀ e ∈ es, Writable A e.1) → (∀ e ∈ es, Writable A e.2) →
      es.Pairwise (fun e f => ¬ TSame A e.1 f.1) →
      Writable A (.map es)

/-- The nodes that stand for a keyword, given its symbol, for a string, and for a real, given its text. -/
structure Forms where
  kw : U64 → Node
  str : List Byte → Node
  real : List Byte → Node → Prop

/-- Keywords and strings as they are meant; for reals any real (which one, see C85). -/
def asMeant : Forms := ⟨.kw, .str, fun _ n => ∃ v, n = .real v⟩

/-- Keywords as symbols, strings as they are written, with quotes and backslashes; reals as the number the digits give
with the arithmetic of the machine (how far that is from the number written, see C85). -/
def asRead (L : Lib) : Forms :=
  ⟨.sym, fun s => .str (quotedText s), fun w n => ∃ neg ints frac ex, RealText w neg ints frac ex ∧
    n = .real (realIn L.arith neg ints frac ex)⟩

mutual
/-- The node stands for the tree, given the symbol table. Map entries may be in any order. -/
inductive Reads (tab : SymTab) (fm : Forms) : Tree → Node → Prop
  | nil : Reads tab fm .nil .nil
  | bool (b) : Reads tab fm (.bool b) (.bool b)
  | int (v) : Reads tab fm (.int v) (.int (BitVec.ofInt 64 v))
  | real {w n} : fm.real w n → Reads tab fm (.real w) n
  | str (s) : Reads tab fm (.str s) (fm.str s)
  | sym {n i} : tab.string i = .ok n → Reads tab fm (.sym n) (.sym i)
  | kw {n i} : tab.string i = .ok (58#8 :: n) → Reads tab fm (.kw n) (fm.kw i)
  | list {xs ns} : ReadsList tab fm xs ns → Reads tab fm (.list xs) (.list ns)
  | vec {xs ns} : ReadsList tab fm xs ns → Reads tab fm (.vec xs) (.vec ns)
  | map {es gs fs} : ReadsEntries tab fm es gs → gs.Perm fs → Reads tab fm (.map es) (.map fs)
inductive ReadsList (tab : SymTab) (fm : Forms) : List Tree → List Node → Prop
  | nil : ReadsList tab fm [] []
  | cons {x n xs ns} : Reads tab fm x n → ReadsList tab fm xs ns → ReadsList tab fm (x :: xs) (n :: ns)
inductive ReadsEntries (tab : SymTab) (fm : Forms) : List (Tree × Tree) → List (Node × Node) → Prop
  | nil : ReadsEntries tab fm [] []
  | cons {k v n m es fs} : Reads tab fm k n → Reads tab fm v m → ReadsEntries tab fm es fs →
      ReadsEntries tab fm ((k, v) :: es) ((n, m) :: fs)
end

end Ab.Spec
