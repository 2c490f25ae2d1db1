import Verif.Spec.EdnHeap
/-! Chains of EDN nodes. -/
namespace Ab.Spec

open Edn EdnHeap

/-- Each node of the sequence holds the next. -/
def Chain (h : Heap) : List Addr → Prop
  | [] => True
  | [_] => True
  | a :: b :: l => Holds h a b ∧ Chain h (b :: l)

end Ab.Spec
