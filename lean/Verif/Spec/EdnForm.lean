import Verif.Model.EdnParser
/-! Well-formed EDN, on token kinds: brackets match and every key in a map has a value. -/
namespace Ab.Spec

open Edn

/-- The six brackets. -/
def isBracket : Kind → Bool
  | .lparen | .rparen | .lbracket | .rbracket | .lbrace | .rbrace => true
  | _ => false

mutual
/-- The tokens of one datum; the number counts the key-value pairs written in it, at any depth. -/
inductive IsDatum : List Kind → Nat → Prop
  | atom {k} : isBracket k = false → IsDatum [k] 0
  | list {ks n} : IsSeq ks n → IsDatum (.lparen :: (ks ++ [.rparen])) n
  | vec {ks n} : IsSeq ks n → IsDatum (.lbracket :: (ks ++ [.rbracket])) n
  | map {ks n} : IsPairs ks n → IsDatum (.lbrace :: (ks ++ [.rbrace])) n
/-- The tokens of any number of data. -/
inductive IsSeq : List Kind → Nat → Prop
  | nil : IsSeq [] 0
  | cons {a b n m} : IsDatum a n → IsSeq b m → IsSeq (a ++ b) (n + m)
/-- The tokens of any number of keys and values. -/
inductive IsPairs : List Kind → Nat → Prop
  | nil : IsPairs [] 0
  | cons {a b c n m l} : IsDatum a n → IsDatum b m → IsPairs c l → IsPairs (a ++ (b ++ c)) (n + m + 1 + l)
end

/-- The tokens form a document. -/
def IsDocument (ts : List Token) : Prop := ∃ n, IsSeq (ts.map (·.kind)) n

mutual
/-- The key-value pairs in a node, at any depth. -/
def entries : Node → Nat
  | .list xs => entriesList xs
  | .vec xs => entriesList xs
  | .map es => entriesMap es
  | _ => 0
def entriesList : List Node → Nat
  | [] => 0
  | x :: xs => entries x + entriesList xs
def entriesMap : List (Node × Node) → Nat
  | [] => 0
  | e :: es => entriesOne e + entriesMap es
def entriesOne : Node × Node → Nat
  | (k, v) => entries k + entries v + 1
end

end Ab.Spec
