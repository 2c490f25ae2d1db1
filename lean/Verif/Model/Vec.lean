import Verif.Basic
/-!
Model of util/include/Ab/Vector.hpp: the persistent vector.

A heap of reference-counted trie nodes, and a program's vector variables. Simplifications: addresses are never
reused, so that a use of a deleted node is recognised; counters (`int`) and sizes (`size_t`) are natural
numbers: a counter is the number of references held by live nodes and variables (that is C31), so to overflow
it 2^31 of those would have to be alive at once. Not modelled: the copy and move constructors and `assoc`, which do not
compile when instantiated (Vector.hpp:101-108 pass a string for `fprintf`'s stream; 126 has no constructor to
call), `conj`, which is not defined, the messages printed to `stderr`, and `dump`.
-/
namespace Ab.PVec

/-- What a node is: a `Leaf` (Vector.hpp:24-30) with four values, or a `Branch` (32-38) with four children. -/
inductive Body (T : Type)
  | leaf (values : Fin 4 → T)
  | branch (children : Fin 4 → Option Nat)

/-- A node with its reference counter (Rc.hpp:42). -/
structure Node (T : Type) where
  rc   : Nat
  body : Body T

/-- The heap. -/
structure Heap (T : Type) where
  cell : Nat → Option (Node T)
  next : Nat

variable {T : Type}

def Heap.empty : Heap T := ⟨fun _ => none, 0⟩

/-- Replace one cell. -/
def Heap.put (h : Heap T) (a : Nat) (n : Option (Node T)) : Heap T :=
  { h with cell := fun x => if x = a then n else h.cell x }

/-- A node in use; anything else is undefined. -/
def Heap.node (h : Heap T) (a : Nat) : Outcome (Node T) :=
  match h.cell a with
  | some n => .ok n
  | none => .ub "use of a deleted node"

/-- `new`: the counter of a new node, copied or not, is zero (Rc.hpp:15, 18). -/
def Heap.new (h : Heap T) (b : Body T) : Heap T × Nat :=
  ({ (h.put h.next (some ⟨0, b⟩)) with next := h.next + 1 }, h.next)

/-- `refcounter().inc()` (Rc.hpp:30-34). -/
def Heap.inc (h : Heap T) (a : Nat) : Outcome (Heap T) := do
  let n ← h.node a
  pure (h.put a (some { n with rc := n.rc + 1 }))

/-- `refcounter().dec()` (Rc.hpp:36-40); the new value too. -/
def Heap.dec (h : Heap T) (a : Nat) : Outcome (Heap T × Nat) := do
  let n ← h.node a
  match n.rc with
  | 0 => .trap "0 <= value_"
  | r + 1 => pure (h.put a (some { n with rc := r }), r)

/-- `static_cast<const Leaf*>(node)->values`. -/
def Heap.values (h : Heap T) (a : Nat) : Outcome (Fin 4 → T) := do
  let n ← h.node a
  match n.body with
  | .leaf v => pure v
  | .branch _ => .ub "a branch used as a leaf"

/-- `static_cast<const Branch*>(node)->children`. -/
def Heap.children (h : Heap T) (a : Nat) : Outcome (Fin 4 → Option Nat) := do
  let n ← h.node a
  match n.body with
  | .branch c => pure c
  | .leaf _ => .ub "a leaf used as a branch"

/-- One entry of an array of four replaced. -/
def upd {α : Type} (f : Fin 4 → α) (i : Fin 4) (x : α) : Fin 4 → α := fun k => if k = i then x else f k

/-- `i % RADIX` as an index. -/
def mod4 (i : Nat) : Fin 4 := ⟨i % 4, Nat.mod_lt _ (by decide)⟩

/-- `subindex` (Vector.hpp:194-197). -/
def subindex (level i : Nat) : Fin 4 := mod4 (i / 4 ^ level)

/-- `release` (Vector.hpp:200-217). -/
def release : Nat → Heap T → Option Nat → Outcome (Heap T)
  | _, h, none => .ok h
  | 0, h, some a => do
    let (h, r) ← h.dec a
    if r = 0 then do
      let _ ← h.values a
      pure (h.put a none)
    else pure h
  | level + 1, h, some a => do
    let (h, r) ← h.dec a
    if r = 0 then do
      let c ← h.children a
      let h ← release level h (c 0)
      let h ← release level h (c 1)
      let h ← release level h (c 2)
      let h ← release level h (c 3)
      pure (h.put a none)
    else pure h

/-- `inc` of a child that is not null. -/
def incChild (h : Heap T) (c : Option Nat) : Outcome (Heap T) :=
  match c with
  | some a => h.inc a
  | none => .ok h

/-- `copy` of a leaf (Vector.hpp:220-226); `d` is the value a new leaf is filled with. -/
def copyLeaf (d : T) (h : Heap T) (src : Option Nat) : Outcome (Heap T × Nat) :=
  match src with
  | none => .ok (h.new (.leaf (fun _ => d)))
  | some a => do
    let v ← h.values a
    pure (h.new (.leaf v))

/-- `copy` of a branch (Vector.hpp:228-243). -/
def copyBranch (h : Heap T) (src : Option Nat) : Outcome (Heap T × Nat) :=
  match src with
  | none => .ok (h.new (.branch (fun _ => none)))
  | some a => do
    let c ← h.children a
    let (h, b) := h.new (.branch c)
    let h ← incChild h (c 0)
    let h ← incChild h (c 1)
    let h ← incChild h (c 2)
    let h ← incChild h (c 3)
    pure (h, b)

/-- `clone->children[si] = n` and `leaf->values[...] = x`: the body of a node replaced. -/
def Heap.setBody (h : Heap T) (a : Nat) (b : Body T) : Outcome (Heap T) := do
  let n ← h.node a
  pure (h.put a (some { n with body := b }))

/-- `update` (Vector.hpp:245-261). -/
def update (d : T) : Nat → Heap T → Option Nat → Nat → T → Outcome (Heap T × Nat)
  | 0, h, node, i, x => do
    let (h, a) ← copyLeaf d h node
    let v ← h.values a
    let h ← h.setBody a (.leaf (upd v (mod4 i) x))
    pure (h, a)
  | level + 1, h, node, i, x => do
    let (h, a) ← copyBranch h node
    let si := subindex (level + 1) i
    let c ← h.children a
    let h ← release level h (c si)
    let (h, n) ← update d level h (c si) i x
    let c ← h.children a
    let h ← h.setBody a (.branch (upd c si (some n)))
    let h ← h.inc n
    pure (h, a)

/-- A `Vec` (Vector.hpp:327-329): its data members. -/
structure V where
  root  : Nat
  size  : Nat
  level : Nat
deriving Repr, DecidableEq

/-- `Vec()` (Vector.hpp:96-99). -/
def mk (d : T) (h : Heap T) : Outcome (Heap T × V) := do
  let (h, a) := h.new (.leaf (fun _ => d))
  let h ← h.inc a
  pure (h, ⟨a, 0, 0⟩)

/-- `capacity` (Vector.hpp:170-172): a shift of an `int`, undefined from 32 on (the shift is even). -/
def capacity (v : V) : Outcome Nat :=
  let k := (v.level + 1) * 2
  if k < 31 then .ok (2 ^ k) else .ub "shift of int"

/-- The constructor used by `cons` (Vector.hpp:286-289). -/
def ofRoot (h : Heap T) (root size level : Nat) : Outcome (Heap T × V) := do
  let h ← h.inc root
  pure (h, ⟨root, size, level⟩)

/-- `cons` (Vector.hpp:141-168). -/
def cons (d : T) (h : Heap T) (v : V) (x : T) : Outcome (Heap T × V) := do
  let i := v.size
  let cap ← capacity v
  if i < cap then do
    let (h, r) ← update d v.level h (some v.root) i x
    ofRoot h r (v.size + 1) v.level
  else do
    let (h, r) := h.new (.branch (upd (fun _ => none) 0 (some v.root)))
    let h ← h.inc v.root
    let si := subindex (v.level + 1) i
    let c ← h.children r
    if c si ≠ none then .trap "root2->children[si] == nullptr"
    else do
      let (h, n) ← update d v.level h (c si) i x
      let c ← h.children r
      let h ← h.setBody r (.branch (upd c si (some n)))
      let h ← h.inc n
      ofRoot h r (v.size + 1) (v.level + 1)

/-- The loop of `leafFor` (Vector.hpp:296-303) with `nodefor` (279-284); a null child fails an assertion. -/
def leafFor (h : Heap T) : Nat → Nat → Nat → Outcome Nat
  | 0, a, _ => .ok a
  | level + 1, a, i => do
    let c ← h.children a
    match c (subindex (level + 1) i) with
    | none => .trap "node != nullptr"
    | some b => leafFor h level b i

/-- `at` and `operator[]` (Vector.hpp:114-121). -/
def at' (h : Heap T) (v : V) (i : Nat) : Outcome T := do
  let a ← leafFor h v.level v.root i
  let vals ← h.values a
  pure (vals (mod4 i))

/-- `foreach` (Vector.hpp:263-277): the values the function is called with, in order. -/
def foreach' (h : Heap T) : Nat → Option Nat → Outcome (List T)
  | _, none => .ok []
  | 0, some a => do
    let v ← h.values a
    pure [v 0, v 1, v 2, v 3]
  | level + 1, some a => do
    let c ← h.children a
    let l0 ← foreach' h level (c 0)
    let l1 ← foreach' h level (c 1)
    let l2 ← foreach' h level (c 2)
    let l3 ← foreach' h level (c 3)
    pure (l0 ++ l1 ++ l2 ++ l3)

/-- An iterator (Vector.hpp:90-93). -/
structure Iter where
  leaf : Nat
  offset : Nat
  sub : Nat
deriving Repr, DecidableEq

/-- `Iter(vec, index)` (Vector.hpp:82-86). -/
def iterAt (h : Heap T) (v : V) (i : Nat) : Outcome Iter := do
  let a ← leafFor h v.level v.root i
  pure ⟨a, i / 4 * 4, i % 4⟩

/-- `operator++` (Vector.hpp:47-56). -/
def Iter.next (h : Heap T) (v : V) (it : Iter) : Outcome Iter :=
  let sub := it.sub + 1
  if sub = 4 then do
    let a ← leafFor h v.level v.root (sub + it.offset)
    pure ⟨a, it.offset + 4, 0⟩
  else .ok { it with sub := sub }

/-- `operator*` (Vector.hpp:58-61). -/
def Iter.deref (h : Heap T) (v : V) (it : Iter) : Outcome T :=
  if it.sub + it.offset < v.size then do
    let vals ← h.values it.leaf
    pure (vals (mod4 it.sub))
  else .trap "subindex_ + offset_ < vec_.size()"

/-- The loop `for (x : vec)`: `it` until `end`; the elements seen. -/
def iterate (h : Heap T) (v : V) : Nat → Iter → Iter → Outcome (List T)
  | 0, _, _ => .fuel
  | fuel + 1, it, stop =>
    if it.offset + it.sub = stop.offset + stop.sub then .ok []
    else do
      let x ← it.deref h v
      let it ← it.next h v
      let l ← iterate h v fuel it stop
      pure (x :: l)

/-- `for (x : vec)` (Vector.hpp:129-135). -/
def range (h : Heap T) (v : V) : Outcome (List T) := do
  let b ← iterAt h v 0
  let e ← iterAt h v v.size
  iterate h v (v.size + 1) b e

/-- What a program does with vectors. -/
inductive Op (T : Type)
  | new (i : Nat)                 -- `Vec<T> i;`
  | cons (i j : Nat) (x : T)      -- `Vec<T> i = j.cons(x);`
  | assign (i j : Nat)            -- `i = j;`
  | drop (i : Nat)                -- the end of `i`'s life

/-- The program's state. -/
structure St (T : Type) where
  heap : Heap T
  var  : Nat → Option V

def St.init : St T := ⟨Heap.empty, fun _ => none⟩

def St.get (s : St T) (i : Nat) : Outcome V :=
  match s.var i with
  | some v => .ok v
  | none => .ub "no such variable"

def St.fresh (s : St T) (i : Nat) : Outcome Unit :=
  match s.var i with
  | none => .ok ()
  | some _ => .ub "name in use"

def setVar (f : Nat → Option V) (i : Nat) (v : Option V) : Nat → Option V := fun k => if k = i then v else f k

/-- One operation. -/
def step (d : T) (s : St T) : Op T → Outcome (St T)
  | .new i => do
    s.fresh i
    let (h, v) ← mk d s.heap
    pure ⟨h, setVar s.var i (some v)⟩
  | .cons i j x => do
    s.fresh i
    let w ← s.get j
    let (h, v) ← cons d s.heap w x
    pure ⟨h, setVar s.var i (some v)⟩
  | .assign i j => do                      -- Vector.hpp:180-188
    let v ← s.get i
    let h ← release v.level s.heap (some v.root)
    let w ← s.get j
    let h ← h.inc w.root
    pure ⟨h, setVar s.var i (some w)⟩
  | .drop i => do                          -- Vector.hpp:110-112
    let v ← s.get i
    let h ← release v.level s.heap (some v.root)
    pure ⟨h, setVar s.var i none⟩

/-- A program. -/
def run (d : T) : St T → List (Op T) → Outcome (St T)
  | s, [] => .ok s
  | s, o :: l => do
    let s ← step d s o
    run d s l

end Ab.PVec
