import Verif.Model.EdnHeap
/-!
What a program working with EDN nodes may expect: objects have an identity and contents, pointers refer to
objects, and nothing is ever destroyed. No use counts.
-/
namespace Ab.Spec.Share

open Edn EdnHeap

/-- An object: its metadata and its contents. -/
structure Obj where
  mdata : Ptr
  body  : Body
deriving Repr, DecidableEq

/-- All objects made so far, and the variables. -/
structure World where
  objs : List Obj
  vars : List Ptr
deriving Repr, DecidableEq

/-- The objects in the form that `node_hash` and `node_eq` are modelled on; what these compute is C87. -/
def World.heap (w : World) : Heap := w.objs.map fun o => some ⟨0, o.mdata, o.body⟩

/-- The value of a variable. -/
def World.get (w : World) (x : Nat) : Outcome Ptr :=
  if h : x < w.vars.length then .ok w.vars[x] else .throw "no such variable"

/-- The values of several. -/
def World.getAll (w : World) : List Nat → Outcome (List Ptr)
  | [] => .ok []
  | y :: ys => do
    let p ← w.get y
    let ps ← w.getAll ys
    .ok (p :: ps)

/-- `x` now refers to `p`. -/
def World.put (w : World) (x : Nat) (p : Ptr) : Outcome World :=
  if x < w.vars.length then .ok { w with vars := w.vars.set x p } else .throw "no such variable"

/-- `x` now refers to a new object without metadata. -/
def World.new (w : World) (x : Nat) (b : Body) : Outcome World :=
  World.put { w with objs := w.objs ++ [⟨none, b⟩] } x (some w.objs.length)

/-- The object a pointer refers to. -/
def World.look (w : World) : Ptr → Outcome Obj
  | none => .ub "null pointer"
  | some a => if h : a < w.objs.length then .ok w.objs[a] else .ub "no such object"

/-- Replace the object a pointer refers to. -/
def World.store (w : World) (p : Ptr) (o : Obj) : World :=
  match p with
  | none => w
  | some a => { w with objs := w.objs.set a o }

/-- The elements of a list or a vector, and how to make one of the same kind. -/
def sequence : Body → Outcome (List Ptr × (List Ptr → Body))
  | .list xs => .ok (xs, .list)
  | .vec xs => .ok (xs, .vec)
  | _ => .trap "kind"

/-- The entries of a map. -/
def mapping : Body → Outcome (List HEntry)
  | .map es => .ok es
  | _ => .trap "kind"

/-- A node of the first kind may be given the value `b`. -/
def sort : Body → Atom → Bool
  | .atom .nil, .nil => true
  | .atom (.bool _), .bool _ => true
  | .atom (.int _), .int _ => true
  | .atom (.real _), .real _ => true
  | .atom (.sym _), .sym _ => true
  | .atom (.kw _), .kw _ => true
  | .atom (.chr _), .chr _ => true
  | .atom (.str _), .str _ => true
  | _, _ => false

/-- The hash of a key, and the entry found for it. -/
def World.lookup (w : World) (L : HLib) (n : Nat) (es : List HEntry) (k : Ptr) : Outcome (U64 × Option HEntry) := do
  let x ← hashH L.toLib w.heap n k
  let r ← findLoop (eqH L.toLib w.heap n) x k es
  .ok (x, r)

/-- One step. -/
def step (L : HLib) (n : Nat) (w : World) : Op → Outcome World
  | .atom x a => w.new x (.atom a)
  | .list x ys => do w.new x (.list (← w.getAll ys))
  | .vec x ys => do w.new x (.vec (← w.getAll ys))
  | .map x => w.new x (.map [])
  | .copy x y => do w.put x (← w.get y)
  | .null x => w.put x none
  | .push c y => do
    let p ← w.get c
    let q ← w.get y
    let o ← w.look p
    let (xs, make) ← sequence o.body
    .ok (w.store p { o with body := make (xs ++ [q]) })
  | .setAt c i y => do
    let p ← w.get c
    let q ← w.get y
    let o ← w.look p
    let (xs, make) ← sequence o.body
    if i < xs.length then .ok (w.store p { o with body := make (xs.set i q) }) else .throw "out_of_range"
  | .getAt x c i => do
    let p ← w.get c
    let o ← w.look p
    let (xs, _) ← sequence o.body
    if h : i < xs.length then w.put x xs[i] else .throw "out_of_range"
  | .clear c => do
    let p ← w.get c
    let o ← w.look p
    let (_, make) ← sequence o.body
    .ok (w.store p { o with body := make [] })
  | .setAtom c b => do
    let p ← w.get c
    let o ← w.look p
    if sort o.body b then .ok (w.store p { o with body := .atom b }) else .trap "kind"
  | .setMeta c y => do
    let p ← w.get c
    let q ← w.get y
    let o ← w.look p
    let m ← w.look q
    let _ ← mapping m.body
    .ok (w.store p { o with mdata := q })
  | .getMeta x c => do
    let p ← w.get c
    let o ← w.look p
    w.put x o.mdata
  | .insert m k v => do
    let p ← w.get m
    let kp ← w.get k
    let vp ← w.get v
    let o ← w.look p
    let es ← mapping o.body
    match ← w.lookup L n es kp with
    | (_, some _) => .ok w
    | (x, none) =>
      match kp with
      | none => .ub "null pointer"
      | some ka => .ok (w.store p { o with body := .map (L.hplace es ⟨x, ka, vp⟩) })
  | .find x m k => do
    let p ← w.get m
    let kp ← w.get k
    let o ← w.look p
    let es ← mapping o.body
    match ← w.lookup L n es kp with
    | (_, some e) => w.put x e.val
    | (_, none) => .throw "out_of_range"

/-- A program. -/
def run (L : HLib) (n : Nat) (w : World) : List Op → Outcome World
  | [] => .ok w
  | o :: os => do
    let w ← step L n w o
    run L n w os

/-- At the start: no objects, all variables null. -/
def World.start (vars : Nat) : World := ⟨[], List.replicate vars none⟩

/-- The two computations end the same way, with results related by `R`. -/
def Same {α β} (R : α → β → Prop) : Outcome α → Outcome β → Prop
  | .ok a, .ok b => R a b
  | .throw m, .throw m' => m = m'
  | .trap m, .trap m' => m = m'
  | .ub m, .ub m' => m = m'
  | .fuel, .fuel => True
  | _, _ => False

end Ab.Spec.Share

namespace Ab.Spec.Share

open Edn EdnHeap

/-- The variable through which an operation changes a node, if it changes one. -/
def target : Op → Option Nat
  | .push c _ | .setAt c _ _ | .clear c | .setAtom c _ | .setMeta c _ | .insert c _ _ => some c
  | .atom .. | .list .. | .vec .. | .map _ | .copy .. | .null _ | .getAt .. | .getMeta .. | .find .. => none

/-- The variable that an operation assigns to, if it does. -/
def assigned : Op → Option Nat
  | .atom x _ | .list x _ | .vec x _ | .map x | .copy x _ | .null x | .getAt x _ _ | .getMeta x _ | .find x _ _ => some x
  | .push .. | .setAt .. | .clear _ | .setAtom .. | .setMeta .. | .insert .. => none

end Ab.Spec.Share
