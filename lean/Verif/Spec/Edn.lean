import Verif.Model.EdnNode
/-! Specification vocabulary for EDN trees: which trees can be built, and when two are the same data. -/
namespace Ab.Spec

open Edn

/-- `m` occurs in `n` (or is `n`). -/
inductive Sub : Node → Node → Prop
  | refl (n) : Sub n n
  | list {m x xs} : x ∈ xs → Sub m x → Sub m (.list xs)
  | vec {m x xs} : x ∈ xs → Sub m x → Sub m (.vec xs)
  | key {m e es} : e ∈ es → Sub m e.1 → Sub m (.map es)
  | val {m e es} : e ∈ es → Sub m e.2 → Sub m (.map es)

/-- The trees a program can construct: leaves, sequences of such trees, and maps filled by insertion.
Inserting a key that cannot be hashed aborts. -/
inductive Built (L : Lib) : Node → Prop
  | nil : Built L .nil
  | bool (b) : Built L (.bool b)
  | int (v) : Built L (.int v)
  | real (v) : Built L (.real v)
  | sym (i) : Built L (.sym i)
  | kw (i) : Built L (.kw i)
  | chr (c) : Built L (.chr c)
  | str (s) : Built L (.str s)
  | list {xs} : (∀ x ∈ xs, Built L x) → Built L (.list xs)
  | vec {xs} : (∀ x ∈ xs, Built L x) → Built L (.vec xs)
  | emptyMap : Built L (.map [])
  | insert {es k v h} : Built L (.map es) → Built L k → Built L v → Node.hash L k = .ok h →
      Built L (.map (insertEntry L es (k, v)))

/-- What the C++ standard promises of the library: an insertion adds one entry (at an unspecified place),
and equal `double`s have equal `std::hash`. -/
structure Lawful (L : Lib) : Prop where
  place_perm : ∀ es e, (L.place es e).Perm (e :: es)
  hash_double : ∀ a b, dblEq a b = true → L.hashDouble a = L.hashDouble b

/-- Two `double` patterns denote the same number: the same pattern, or the two zeros. -/
def SameDouble (a b : U64) : Prop := a = b ∨ (a = 0#64 ∧ b = 0x8000000000000000#64) ∨
  (a = 0x8000000000000000#64 ∧ b = 0#64)

mutual
/-- Two trees are the same data: same shape and leaves, maps up to the order of their entries. -/
inductive Same : Node → Node → Prop
  | nil : Same .nil .nil
  | bool (b) : Same (.bool b) (.bool b)
  | int (v) : Same (.int v) (.int v)
  | real {v w} : SameDouble v w → Same (.real v) (.real w)
  | sym (i) : Same (.sym i) (.sym i)
  | kw (i) : Same (.kw i) (.kw i)
  | chr (c) : Same (.chr c) (.chr c)
  | str (s) : Same (.str s) (.str s)
  | list {xs ys} : SameList xs ys → Same (.list xs) (.list ys)
  | vec {xs ys} : SameList xs ys → Same (.vec xs) (.vec ys)
  | map {es fs gs} : SameEntries es gs → gs.Perm fs → Same (.map es) (.map fs)
/-- Element by element. -/
inductive SameList : List Node → List Node → Prop
  | nil : SameList [] []
  | cons {x y xs ys} : Same x y → SameList xs ys → SameList (x :: xs) (y :: ys)
/-- Entry by entry. -/
inductive SameEntries : List (Node × Node) → List (Node × Node) → Prop
  | nil : SameEntries [] []
  | cons {k v k' v' es fs} : Same k k' → Same v v' → SameEntries es fs →
      SameEntries ((k, v) :: es) ((k', v') :: fs)
end

/-- The bits of a NaN (IEEE 754): the exponent, bits 52 to 62, all ones, the fraction, bits 0 to 51, not zero. -/
def IsNaN (v : BitVec 64) : Prop := v.toNat / 2^52 % 2^11 = 2^11 - 1 ∧ v.toNat % 2^52 ≠ 0

/-- No NaN occurs in the tree. -/
def NaNFree (n : Node) : Prop := ∀ v, Sub (.real v) n → ¬ IsNaN v

/-- Every map in the tree has at most one entry. -/
def SmallMaps (n : Node) : Prop := ∀ es, Sub (.map es) n → es.length ≤ 1

/-- Every key of every map in the tree contains only maps of at most one entry. -/
def SmallKeys (n : Node) : Prop := ∀ es e, Sub (.map es) n → e ∈ es → SmallMaps e.1

/-- The sort of datum a node is. -/
def sortOf : Node → String
  | .nil => "nil" | .bool _ => "boolean" | .int _ => "integer" | .real _ => "real" | .sym _ => "symbol"
  | .kw _ => "keyword" | .chr _ => "character" | .str _ => "string" | .list _ => "list" | .vec _ => "vector" | .map _ => "map"

end Ab.Spec
