import Verif.Model.EdnHeap
/-!
Destroying EDN nodes on a finite stack (edn/include/Ab/Edn/Ir.hpp).

The destructor of a node (implicit; the members 458, 529, 615: `NodeVector` or `NodeMap`, then the base class's `metadata_`, 86) ends the lives of the
`Ptr`s the node holds; where one is the last use of another node, that node's destructor runs inside the first.
Nothing limits the depth.

Model: `room` is the number of destructors for which there is still stack; all take the same, and one for which there is none is
undefined behaviour. Otherwise as `release` of Model/EdnHeap.lean, with the nested calls nested.
-/
namespace Ab.EdnHeap

/-- Ending the life of the given `Ptr`s in order, with stack for `room` nested destructors. The second number bounds the steps. -/
def releaseD : Nat → Nat → Heap → List Ptr → Outcome Heap
  | _, _, h, [] => .ok h
  | _, 0, _, _ :: _ => .fuel
  | room, n + 1, h, none :: w => releaseD room n h w
  | room, n + 1, h, some a :: w =>
    match h[a]? with
    | some (some c) =>
      if c.count = 1 then
        match room with
        | 0 => .ub "stack overflow"
        | room' + 1 => do
          let h ← releaseD room' n (h.set a none) c.refs
          releaseD room n h w
      else if c.count = 0 then .ub "use count below zero"
      else releaseD room n (h.set a (some { c with count := c.count - 1 })) w
    | _ => .ub "use after free"

/-- `releaseD` with enough steps. -/
def dropD (room : Nat) (h : Heap) (w : List Ptr) : Outcome Heap := releaseD room (h.refs.length + w.length) h w

end Ab.EdnHeap
