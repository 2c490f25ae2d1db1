import Verif.Model.EdnNode
/-!
Model of EDN nodes as shared, mutable objects (edn/include/Ab/Edn/Ir.hpp): `Ptr<T>` is `std::shared_ptr<T>`
(34-35), objects are made by `std::make_shared` (39-42) and hold `Ptr`s to their elements (`NodeVector`,
`NodeMap`) and to their metadata (86).

Simplifications, stated once:
* `std::shared_ptr` is a use count; its weak count is not modelled;
* an address is never used again after its node is destroyed;
* destruction releases the elements in order and then the metadata (a derived class's members are destroyed
  before its base's); the depth of the C++ recursion is not limited;
* `std::unordered_map` is the list of its entries in iteration order, each with the hash of its key at the
  time of insertion (libstdc++ keeps it); the order after an insertion is a parameter;
* a program has a fixed number of variables of type `Ptr`, which may be null; following a null `Ptr` is
  undefined behaviour;
* mutation through `elements()` is limited to `clear()`; `set_value` and `set_id` are `setAtom`.
-/
namespace Ab.EdnHeap

open Edn

abbrev Addr := Nat

/-- A `Ptr`. -/
abbrev Ptr := Option Addr

/-- The nodes without elements (Ir.hpp:205-405). -/
inductive Atom where
  | nil
  | bool (b : Bool)
  | int (v : U64)
  | real (v : U64)
  | sym (id : U64)
  | kw (id : U64)
  | chr (c : U64)
  | str (s : List Byte)
deriving Repr, DecidableEq

/-- The tree of an atom. -/
def Atom.node : Atom → Node
  | .nil => .nil | .bool b => .bool b | .int v => .int v | .real v => .real v | .sym i => .sym i | .kw i => .kw i
  | .chr c => .chr c | .str s => .str s

/-- An entry of a `NodeMap`: the hash kept with it, key and value. The key is never null: it was hashed. -/
structure HEntry where
  hash : U64
  key  : Addr
  val  : Ptr
deriving Repr, DecidableEq

/-- What a node holds. -/
inductive Body where
  | atom (a : Atom)
  | list (xs : List Ptr)
  | vec (xs : List Ptr)
  | map (es : List HEntry)
deriving Repr, DecidableEq

/-- `Kind` (Ir.hpp:47-60). -/
def Body.kind : Body → U64
  | .atom a => a.node.kind | .list _ => 8#64 | .vec _ => 9#64 | .map _ => 10#64

/-- The `Ptr`s a body holds. -/
def Body.refs : Body → List Ptr
  | .atom _ => []
  | .list xs => xs
  | .vec xs => xs
  | .map es => es.flatMap fun e => [some e.key, e.val]

/-- A live node: use count, `metadata_`, and the rest. -/
structure Cell where
  count : Nat
  mdata : Ptr
  body  : Body
deriving Repr, DecidableEq

/-- The `Ptr`s a node holds, in the order of destruction. -/
def Cell.refs (c : Cell) : List Ptr := c.body.refs ++ [c.mdata]

/-- The nodes made so far; `none` has been destroyed. -/
abbrev Heap := List (Option Cell)

/-- The library: hash functions, and the iteration order of a `NodeMap` after an insertion. -/
structure HLib extends Lib where
  hplace : List HEntry → HEntry → List HEntry

/-- Follow a `Ptr`. -/
def deref (h : Heap) : Ptr → Outcome Cell
  | none => .ub "null pointer"
  | some a =>
    match h[a]? with
    | some (some c) => .ok c
    | _ => .ub "use after free"

/-- Copying a `Ptr` counts one more use. -/
def retain (h : Heap) : Ptr → Outcome Heap
  | none => .ok h
  | some a =>
    match h[a]? with
    | some (some c) => .ok (h.set a (some { c with count := c.count + 1 }))
    | _ => .ub "use after free"

/-- Copying several. -/
def retainAll (h : Heap) : List Ptr → Outcome Heap
  | [] => .ok h
  | p :: ps => do
    let h ← retain h p
    retainAll h ps

/-- Ending the life of the given `Ptr`s in order: the last use of a node destroys it, which ends the lives of
the `Ptr`s it holds. -/
def release : Nat → Heap → List Ptr → Outcome Heap
  | _, h, [] => .ok h
  | 0, _, _ :: _ => .fuel
  | n + 1, h, none :: w => release n h w
  | n + 1, h, some a :: w =>
    match h[a]? with
    | some (some c) =>
      if c.count = 1 then release n (h.set a none) (c.refs ++ w)
      else if c.count = 0 then .ub "use count below zero"
      else release n (h.set a (some { c with count := c.count - 1 })) w
    | _ => .ub "use after free"

/-- The number of `Ptr`s in all nodes. -/
def Heap.refs (h : Heap) : List Ptr := h.flatMap fun | some c => c.refs | none => []

/-- `release` with enough steps (proved: `release_total`). -/
def drop (h : Heap) (w : List Ptr) : Outcome Heap := release (h.refs.length + w.length) h w

/-- `double` comparison, otherwise the same bits (`operator==` of the atoms: 213, 237, 260, 285, 310, 333,
361, 387). -/
def atomEq : Atom → Atom → Bool
  | .real a, .real b => dblEq a b
  | a, b => a == b

/-- `hash` of the atoms (217, 241, 264, 289, 314, 341, 369, 391) through `node_hash` (758-783). -/
def atomHash (L : Lib) : Atom → Outcome U64
  | .nil => .ok (L.hashKind 0#64)
  | .bool b => .ok (hash2 1#64 (L.hashBool b))
  | .int v => .ok (hash2 2#64 (L.hashLong v))
  | .real v => .ok (hash2 3#64 (L.hashDouble v))
  | .sym i => .ok (hash2 4#64 (hash64 i))
  | .kw i => .ok (hash2 5#64 (hash64 i))
  | .chr _ => .trap "unreachable"
  | .str s => .ok (hash2 7#64 (L.hashString s))

/-- The loops of `List::hash` and `Vector::hash` (434-440, 506-512). -/
def hashLoop (f : Ptr → Outcome U64) : List Ptr → U64 → Outcome U64
  | [], x => .ok x
  | p :: ps, x => do
    let y ← f p
    hashLoop f ps (mix x y)

/-- `node_hash` (758-783); fuel is the depth of the recursion. -/
def hashH (L : Lib) (h : Heap) : Nat → Ptr → Outcome U64
  | 0, _ => .fuel
  | n + 1, p => do
    let c ← deref h p
    match c.body with
    | .atom a => atomHash L a
    | .list xs => hashLoop (hashH L h n) xs (mix HASH_SEED 8#64)
    | .vec xs => hashLoop (hashH L h n) xs (mix HASH_SEED 9#64)
    | .map es => hashLoop (hashH L h n) (es.flatMap fun e => [some e.key, e.val]) HASH_SEED

/-- The loops of `List::operator==` and `Vector::operator==` (424-428, 496-500), after the comparison of the
sizes. -/
def eqLoop (f : Ptr → Ptr → Outcome Bool) : List Ptr → List Ptr → Outcome Bool
  | x :: xs, y :: ys => do
    let b ← f x y
    if b then eqLoop f xs ys else .ok false
  | _, _ => .ok true

/-- `NodeMap::find` for a key with hash `x`: the entries whose hash is the same are compared in iteration
order. -/
def findLoop (f : Ptr → Ptr → Outcome Bool) (x : U64) (k : Ptr) : List HEntry → Outcome (Option HEntry)
  | [] => .ok none
  | e :: es =>
    if e.hash = x then do
      let b ← f k (some e.key)
      if b then .ok (some e) else findLoop f x k es
    else findLoop f x k es

/-- The loop of `Map::operator==` (571-589), after the comparison of the sizes. -/
def mapLoop (g : Ptr → Outcome U64) (f : Ptr → Ptr → Outcome Bool) (fs : List HEntry) : List HEntry → Outcome Bool
  | [] => .ok true
  | e :: es => do
    let x ← g (some e.key)
    let r ← findLoop f x (some e.key) fs
    match r with
    | none => .ok false
    | some e' => do
      let b ← f e.val e'.val
      if b then mapLoop g f fs es else .ok false

/-- `node_eq` (712-742); fuel is the depth of the recursion. -/
def eqH (L : Lib) (h : Heap) : Nat → Ptr → Ptr → Outcome Bool
  | 0, _, _ => .fuel
  | n + 1, p, q => do
    let c ← deref h p
    let d ← deref h q
    match c.body, d.body with
    | .atom a, .atom b => .ok (atomEq a b)
    | .list xs, .list ys => if xs.length = ys.length then eqLoop (eqH L h n) xs ys else .ok false
    | .vec xs, .vec ys => if xs.length = ys.length then eqLoop (eqH L h n) xs ys else .ok false
    | .map es, .map fs =>
      if es.length = fs.length then mapLoop (hashH L h n) (eqH L h n) fs es else .ok false
    | _, _ => .ok false

/-- `Map::find` (552-554). -/
def findH (L : Lib) (h : Heap) (n : Nat) (es : List HEntry) (k : Ptr) : Outcome (Option HEntry) := do
  let x ← hashH L h n k
  findLoop (eqH L h n) x k es

/-- What a program does. Variables and positions are numbers. -/
inductive Op where
  | atom (x : Nat) (a : Atom)                  -- x = node_integer(...) etc. (899-935)
  | list (x : Nat) (ys : List Nat)             -- x = node_list({ys...}) (939-941)
  | vec (x : Nat) (ys : List Nat)              -- x = node_vector({ys...}) (943-947)
  | map (x : Nat)                              -- x = node_map() (949)
  | copy (x y : Nat)                           -- x = y
  | null (x : Nat)                             -- x = nullptr, or the end of its life
  | push (c y : Nat)                           -- as_list(*c).push_back(y) (454-456), as_vector (526-528)
  | setAt (c i y : Nat)                        -- as_list(*c).at(i) = y (411, 485)
  | getAt (x c i : Nat)                        -- x = as_list(*c).at(i) (411-413, 485-487)
  | clear (c : Nat)                            -- as_list(*c).elements().clear() (407, 477)
  | setAtom (c : Nat) (a : Atom)               -- set_value, set_id
  | setMeta (c y : Nat)                        -- c->set_metadata(node_cast<Map>(y)) (73-75)
  | getMeta (x c : Nat)                        -- x = c->metadata() (71)
  | insert (m k v : Nat)                       -- as_map(*m).insert({k, v}) (556-558)
  | find (x m k : Nat)                         -- x = as_map(*m).at(k) (548-550)
deriving Repr

structure State where
  heap : Heap
  vars : List Ptr
deriving Repr, DecidableEq

/-- The value of a variable. -/
def State.var (s : State) (x : Nat) : Outcome Ptr :=
  match s.vars[x]? with
  | some p => .ok p
  | none => .throw "no such variable"

/-- The values of several. -/
def State.varAll (s : State) : List Nat → Outcome (List Ptr)
  | [] => .ok []
  | y :: ys => do
    let p ← s.var y
    let ps ← s.varAll ys
    .ok (p :: ps)

/-- `x = p` for a `Ptr` already counted for `x`: the old value's life ends. -/
def State.assign (s : State) (x : Nat) (p : Ptr) : Outcome State := do
  let old ← s.var x
  let heap ← drop s.heap [old]
  .ok ⟨heap, s.vars.set x p⟩

/-- `x = construct<T>(...)`: the new node's one use is `x`. -/
def State.fresh (s : State) (x : Nat) (b : Body) : Outcome State := do
  let heap ← retainAll s.heap b.refs
  State.assign ⟨heap ++ [some ⟨1, none, b⟩], s.vars⟩ x (some s.heap.length)

/-- Overwrite a live node's body. -/
def setBody (h : Heap) (a : Addr) (c : Cell) (b : Body) : Heap := h.set a (some { c with body := b })

/-- The elements of a list or vector: `as_list`, `as_vector` abort on any other kind (637-640). -/
def elements : Body → Outcome (List Ptr)
  | .list xs => .ok xs
  | .vec xs => .ok xs
  | _ => .trap "kind"

/-- The same kind of sequence with other elements. -/
def withElements : Body → List Ptr → Body
  | .list _, ys => .list ys
  | .vec _, ys => .vec ys
  | b, _ => b

/-- `as_map`. -/
def entries : Body → Outcome (List HEntry)
  | .map es => .ok es
  | _ => .trap "kind"

/-- The address of a `Ptr` that is followed. -/
def addr : Ptr → Outcome Addr
  | none => .ub "null pointer"
  | some a => .ok a

/-- One step; `n` bounds the depth of hashing and comparing. -/
def step (L : HLib) (n : Nat) (s : State) : Op → Outcome State
  | .atom x a => s.fresh x (.atom a)
  | .list x ys => do
    let ps ← s.varAll ys
    s.fresh x (.list ps)
  | .vec x ys => do
    let ps ← s.varAll ys
    s.fresh x (.vec ps)
  | .map x => s.fresh x (.map [])
  | .copy x y => do
    let p ← s.var y
    let heap ← retain s.heap p
    State.assign ⟨heap, s.vars⟩ x p
  | .null x => s.assign x none
  | .push c y => do
    let p ← s.var c
    let q ← s.var y
    let a ← addr p
    let heap ← retain s.heap q
    let cell ← deref heap p
    let xs ← elements cell.body
    .ok ⟨setBody heap a cell (withElements cell.body (xs ++ [q])), s.vars⟩
  | .setAt c i y => do
    let p ← s.var c
    let q ← s.var y
    let a ← addr p
    let cell ← deref s.heap p
    let xs ← elements cell.body
    match xs[i]? with
    | none => .throw "out_of_range"
    | some old => do
      let heap ← retain s.heap q
      let cell ← deref heap p
      let heap ← drop (setBody heap a cell (withElements cell.body (xs.set i q))) [old]
      .ok ⟨heap, s.vars⟩
  | .getAt x c i => do
    let p ← s.var c
    let cell ← deref s.heap p
    let xs ← elements cell.body
    match xs[i]? with
    | none => .throw "out_of_range"
    | some q => do
      let heap ← retain s.heap q
      State.assign ⟨heap, s.vars⟩ x q
  | .clear c => do
    let p ← s.var c
    let a ← addr p
    let cell ← deref s.heap p
    let xs ← elements cell.body
    let heap ← drop (setBody s.heap a cell (withElements cell.body [])) xs
    .ok ⟨heap, s.vars⟩
  | .setAtom c b => do
    let p ← s.var c
    let a ← addr p
    let cell ← deref s.heap p
    if cell.body.kind = b.node.kind then .ok ⟨setBody s.heap a cell (.atom b), s.vars⟩ else .trap "kind"
  | .setMeta c y => do
    let p ← s.var c
    let q ← s.var y
    let a ← addr p
    -- `node_cast<Map>(y)` follows `y`
    let m ← deref s.heap q
    let _ ← entries m.body
    let heap ← retain s.heap q
    let cell ← deref heap p
    let heap ← drop (heap.set a (some { cell with mdata := q })) [cell.mdata]
    .ok ⟨heap, s.vars⟩
  | .getMeta x c => do
    let p ← s.var c
    let cell ← deref s.heap p
    let heap ← retain s.heap cell.mdata
    State.assign ⟨heap, s.vars⟩ x cell.mdata
  | .insert m k v => do
    let p ← s.var m
    let kp ← s.var k
    let vp ← s.var v
    let a ← addr p
    let cell ← deref s.heap p
    let es ← entries cell.body
    let x ← hashH L.toLib s.heap n kp
    let r ← findLoop (eqH L.toLib s.heap n) x kp es
    match r with
    | some _ => .ok s
    | none => do
      let ka ← addr kp
      let heap ← retainAll s.heap [kp, vp]
      let cell ← deref heap p
      .ok ⟨setBody heap a cell (.map (L.hplace es ⟨x, ka, vp⟩)), s.vars⟩
  | .find x m k => do
    let p ← s.var m
    let kp ← s.var k
    let cell ← deref s.heap p
    let es ← entries cell.body
    let r ← findH L.toLib s.heap n es kp
    match r with
    | none => .throw "out_of_range"
    | some e => do
      let heap ← retain s.heap e.val
      State.assign ⟨heap, s.vars⟩ x e.val

/-- A program. An exception ends it. -/
def run (L : HLib) (n : Nat) (s : State) : List Op → Outcome State
  | [] => .ok s
  | o :: os => do
    let s ← step L n s o
    run L n s os

/-- The state at the start: no nodes, all variables null. -/
def State.start (vars : Nat) : State := ⟨[], List.replicate vars none⟩

end Ab.EdnHeap
