import Verif.Model.Vec
/-! The nodes looked at while reading an element of a persistent vector (util/include/Ab/Vector.hpp:114-121, 279-284, 296-303). -/
namespace Ab.PVec

variable {T : Type}

/-- The loop of `leafFor` (Vector.hpp:296-303) with `nodefor` (279-284), and the nodes whose children were looked at, in order. -/
def leafForSeen (h : Heap T) : Nat → Nat → Nat → Outcome (Nat × List Nat)
  | 0, a, _ => .ok (a, [])
  | level + 1, a, i => do
    let c ← h.children a
    match c (subindex (level + 1) i) with
    | none => .trap "node != nullptr"
    | some b => do
      let (r, s) ← leafForSeen h level b i
      pure (r, a :: s)

/-- `at` and `operator[]` (Vector.hpp:114-121), and the nodes that were looked at, in order. -/
def atSeen (h : Heap T) (v : V) (i : Nat) : Outcome (T × List Nat) := do
  let (a, s) ← leafForSeen h v.level v.root i
  let vals ← h.values a
  pure (vals (mod4 i), s ++ [a])

end Ab.PVec
