import Verif.Model.EdnNode
/-! One node in a tree replaced by another. -/
namespace Ab.Spec

open Edn

/-- `m` is `n` with the node `a`, at one place, replaced by `b`. -/
inductive Replaced (a b : Node) : Node → Node → Prop
  | here : Replaced a b a b
  | list {x y xs ys} : Replaced a b x y → Replaced a b (.list (xs ++ x :: ys)) (.list (xs ++ y :: ys))
  | vec {x y xs ys} : Replaced a b x y → Replaced a b (.vec (xs ++ x :: ys)) (.vec (xs ++ y :: ys))
  | key {x y v xs ys} : Replaced a b x y → Replaced a b (.map (xs ++ (x, v) :: ys)) (.map (xs ++ (y, v) :: ys))
  | val {x y k xs ys} : Replaced a b x y → Replaced a b (.map (xs ++ (k, x) :: ys)) (.map (xs ++ (k, y) :: ys))

/-- Different arguments, different results. -/
def OneToOne {α β : Type} (f : α → β) : Prop := ∀ x y, f x = f y → x = y

end Ab.Spec
