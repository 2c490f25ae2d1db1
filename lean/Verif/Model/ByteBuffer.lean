import Verif.Basic
/-!
Model of `Ab::ByteBuffer` (util/include/Ab/ByteBuffer.hpp) over an explicit `malloc` heap.

Simplifications, stated once:
* an address is the serial number of the allocation, so an address is never reused and a stale
  pointer is always recognised as stale (use of it is `ub`);
* `realloc` always moves the block (ISO C lets it; a program may not rely on it staying put);
* whether an allocation succeeds is decided by an arbitrary oracle `Env.fails`, asked with the number
  of allocation requests made so far; requests of 2^63 bytes or more always fail (PTRDIFF_MAX);
* `malloc(0)` returns a unique non-null pointer (glibc);
* fresh memory holds arbitrary bytes `Env.junk`;
* `memcpy` of zero bytes touches no memory and is accepted for any pointer;
* several buffers live in one heap; the program names them by creation order.
-/
namespace Ab.BB

/-- The allocator and memory environment; theorems quantify over it. -/
structure Env where
  fails : Nat → Bool
  junk  : Nat → Nat → Byte

/-- The heap: `blocks a` is the content of the live block at address `a`. -/
structure Heap where
  blocks : Nat → Option (List Byte)
  next   : Nat
  reqs   : Nat

/-- The empty heap. -/
def Heap.init : Heap := ⟨fun _ => none, 0, 0⟩

/-- Pointwise update of the block map. -/
def Heap.set (h : Heap) (a : Nat) (v : Option (List Byte)) : Heap :=
  { h with blocks := fun x => if x = a then v else h.blocks x }

/-- Arbitrary bytes of fresh memory. -/
def Env.fresh (e : Env) (a lo n : Nat) : List Byte :=
  (List.range n).map (fun i => e.junk a (lo + i))

/-- Does the request number `h.reqs` for `n` bytes fail? -/
def Env.refuses (e : Env) (h : Heap) (n : Nat) : Bool :=
  e.fails h.reqs || decide (2^63 ≤ n)

/-- `std::malloc`. -/
def malloc (e : Env) (h : Heap) (n : Nat) : Heap × Option Nat :=
  if e.refuses h n then ({ h with reqs := h.reqs + 1 }, none)
  else
    ({ (h.set h.next (some (e.fresh h.next 0 n))) with next := h.next + 1, reqs := h.reqs + 1 },
     some h.next)

/-- `std::free`. -/
def free (h : Heap) : Option Nat → Outcome Heap
  | none => .ok h
  | some a =>
    match h.blocks a with
    | some _ => .ok (h.set a none)
    | none => .ub "free of a dead block"

/-- `std::realloc` with a non-zero size. -/
def realloc (e : Env) (h : Heap) (p : Option Nat) (n : Nat) : Outcome (Heap × Option Nat) :=
  match p with
  | none => .ok (malloc e h n)
  | some a =>
    match h.blocks a with
    | none => .ub "realloc of a dead block"
    | some l =>
      if e.refuses h n then .ok ({ h with reqs := h.reqs + 1 }, none)
      else
        let l' := l.take n ++ e.fresh h.next l.length (n - l.length)
        .ok ({ ((h.set a none).set h.next (some l')) with
                next := h.next + 1, reqs := h.reqs + 1 }, some h.next)

/-- Store bytes at `p + off`. -/
def store (h : Heap) (p : Option Nat) (off : Nat) (bs : List Byte) : Outcome Heap :=
  if bs = [] then .ok h
  else match p with
    | none => .ub "store through a null pointer"
    | some a =>
      match h.blocks a with
      | none => .ub "store to a dead block"
      | some l =>
        if off + bs.length ≤ l.length then
          .ok (h.set a (some (l.take off ++ bs ++ l.drop (off + bs.length))))
        else .ub "store out of bounds"

/-- Load `n` bytes at `p + off`. -/
def load (h : Heap) (p : Option Nat) (off n : Nat) : Outcome (List Byte) :=
  if n = 0 then .ok []
  else match p with
    | none => .ub "load through a null pointer"
    | some a =>
      match h.blocks a with
      | none => .ub "load from a dead block"
      | some l =>
        if off + n ≤ l.length then .ok ((l.drop off).take n)
        else .ub "load out of bounds"

/-- The data members (ByteBuffer.hpp:244-246). -/
structure Buf where
  data : Option Nat
  size : Nat
  capa : Nat
deriving Repr, DecidableEq

/-- `size_t` addition. -/
def add64 (a b : Nat) : Nat := (a + b) % 2^64
/-- `size_t` multiplication. -/
def mul64 (a b : Nat) : Nat := (a * b) % 2^64

/-- Result of a member function that may throw `std::bad_alloc`: the state it leaves and whether it
threw. -/
structure Res where
  heap  : Heap
  buf   : Buf
  threw : Bool

/-- `ByteBuffer(capacity)` (ByteBuffer.hpp:27-33). On failure no object comes to exist. -/
def ctor (e : Env) (h : Heap) (capacity : Nat) : Heap × Option Buf :=
  match malloc e h capacity with
  | (h, none) => (h, none)
  | (h, some a) => (h, some ⟨some a, 0, capacity⟩)

/-- Copy constructor (ByteBuffer.hpp:35-43). -/
def copyCtor (e : Env) (h : Heap) (o : Buf) : Outcome (Heap × Option Buf) :=
  match malloc e h o.capa with
  | (h, none) => .ok (h, none)
  | (h, some a) => do
    let bs ← load h o.data 0 o.size
    let h ← store h (some a) 0 bs
    pure (h, some ⟨some a, o.size, o.capa⟩)

/-- Move constructor (ByteBuffer.hpp:45-52): the new buffer and the moved-from one. -/
def moveCtor (o : Buf) : Buf × Buf := (o, ⟨none, 0, 0⟩)

/-- Destructor (ByteBuffer.hpp:54-59) and `clear` (97-102). -/
def clear (h : Heap) (b : Buf) : Outcome (Heap × Buf) := do
  let h ← free h b.data
  pure (h, ⟨none, 0, 0⟩)

/-- `resize_capacity` (ByteBuffer.hpp:227-242): with capacity 0 the block is freed and `data_` kept. -/
def resizeCapacity (e : Env) (h : Heap) (b : Buf) (capacity : Nat) : Outcome Res :=
  if capacity = b.capa then .ok ⟨h, b, false⟩
  else if capacity = 0 then do
    let h ← free h b.data
    pure ⟨h, { b with capa := 0 }, false⟩
  else do
    let (h, d) ← realloc e h b.data capacity
    match d with
    | none => pure ⟨h, b, true⟩
    | some a => pure ⟨h, { b with data := some a, capa := capacity }, false⟩

/-- `grow_capacity` (ByteBuffer.hpp:210-222). `DEFAULT_CAPACITY` is 64 (line 18). -/
def growCapacity (e : Env) (h : Heap) (b : Buf) (minCapacity : Nat) : Outcome Res :=
  if b.capa = 0 then do
    Outcome.assert b.data.isNone "data_ == nullptr"
    Outcome.assert (b.size == 0) "size_ == 0"
    resizeCapacity e h b (max minCapacity 64)
  else do
    Outcome.assert b.data.isSome "data_ != nullptr"
    Outcome.assert (decide (b.size ≤ b.capa)) "size_ <= capa_"
    resizeCapacity e h b (max minCapacity (mul64 b.capa 2))

/-- `ensure_space` (ByteBuffer.hpp:200-205). -/
def ensureSpace (e : Env) (h : Heap) (b : Buf) (nbytes : Nat) : Outcome Res :=
  let minCapacity := add64 b.size nbytes
  if b.capa < minCapacity then growCapacity e h b minCapacity else .ok ⟨h, b, false⟩

/-- `append(src, nbytes)` with a source outside the heap (ByteBuffer.hpp:78-82; the template at 86-89
passes the bytes of a local value). -/
def append (e : Env) (h : Heap) (b : Buf) (src : List Byte) : Outcome Res := do
  let r ← ensureSpace e h b src.length
  if r.threw then pure r
  else
    let h ← store r.heap r.buf.data r.buf.size src
    pure ⟨h, { r.buf with size := r.buf.size + src.length }, false⟩

/-- `append(other)` (ByteBuffer.hpp:93): the source pointer is taken before `ensure_space` runs. -/
def appendBuf (e : Env) (h : Heap) (b o : Buf) : Outcome Res := do
  let r ← ensureSpace e h b o.size
  if r.threw then pure r
  else
    let src ← load r.heap o.data 0 o.size
    let h ← store r.heap r.buf.data r.buf.size src
    pure ⟨h, { r.buf with size := r.buf.size + o.size }, false⟩

/-- `write(offset, value)` and `write(offset, src, nbytes)` with `nbytes` non-negative
(ByteBuffer.hpp:63-66, 71-74): the sum in the check is a wrapping `size_t` sum. -/
def write (h : Heap) (b : Buf) (off : Nat) (src : List Byte) : Outcome Heap := do
  Outcome.assert (decide (add64 off src.length ≤ b.size)) "offset + nbytes <= size_"
  store h b.data off src

/-- `read<T>(offset)` / `reinterpret<T>(offset)` with `sizeof(T) = n` (ByteBuffer.hpp:107-128). -/
def read (h : Heap) (b : Buf) (off n : Nat) : Outcome (List Byte) := do
  Outcome.assert (decide (add64 off n ≤ b.size)) "offset + sizeof(T) <= size_"
  load h b.data off n

/-- `operator[]` (ByteBuffer.hpp:171-173): unchecked. -/
def index (h : Heap) (b : Buf) (off : Nat) : Outcome (List Byte) := load h b.data off 1

/-- `resize` (ByteBuffer.hpp:179-182). -/
def resize (e : Env) (h : Heap) (b : Buf) (n : Nat) : Outcome Res := do
  let r ← resizeCapacity e h b n
  if r.threw then pure r else pure ⟨r.heap, { r.buf with size := n }, false⟩

/-- `reserve` (ByteBuffer.hpp:187-191). -/
def reserve (e : Env) (h : Heap) (b : Buf) (n : Nat) : Outcome Res :=
  if b.capa < n then resizeCapacity e h b n else .ok ⟨h, b, false⟩

/-- `shrink_to_fit` (ByteBuffer.hpp:195). -/
def shrinkToFit (e : Env) (h : Heap) (b : Buf) : Outcome Res := resizeCapacity e h b b.size

/-- `release` (ByteBuffer.hpp:133-139): the pointer handed out and the reset buffer. -/
def release (b : Buf) : Option Nat × Buf := (b.data, ⟨none, 0, 0⟩)

/-- `release_span` (ByteBuffer.hpp:141-151): pointer, length and reset buffer; `noexcept`, so a failed
`shrink_to_fit` terminates. -/
def releaseSpan (e : Env) (h : Heap) (b : Buf) : Outcome (Heap × Option Nat × Nat × Buf) := do
  let r ← shrinkToFit e h b
  if r.threw then .trap "bad_alloc leaves a noexcept function"
  else pure (r.heap, r.buf.data, r.buf.size, ⟨none, 0, 0⟩)

/-! ### Programs over several buffers -/

/-- The public operations. Buffers are named by creation order. -/
inductive Op where
  | new (capacity : Nat)
  | copy (i : Nat)
  | move (i : Nat)
  | destroy (i : Nat)
  | clear (i : Nat)
  | append (i : Nat) (src : List Byte)
  | appendBuf (i j : Nat)
  | write (i off : Nat) (src : List Byte)
  | read (i off n : Nat)
  | index (i off : Nat)
  | resize (i n : Nat)
  | reserve (i n : Nat)
  | shrink (i : Nat)
  | release (i : Nat)
  | releaseSpan (i : Nat)
deriving Repr, DecidableEq

/-- What the caller sees. `owned p bs`: the caller now owns pointer `p`, through which it reads `bs`. -/
inductive Obs where
  | unit
  | badAlloc
  | bytes (bs : List Byte)
  | owned (p : Option Nat) (bs : List Byte)
deriving Repr, DecidableEq

/-- A program's state: the heap and its buffers (`none` once destroyed). -/
structure St where
  heap : Heap
  bufs : List (Option Buf)

/-- The initial state. -/
def St.init : St := ⟨Heap.init, []⟩

/-- The live buffer number `i`; using a destroyed or non-existent object is undefined. -/
def St.buf (s : St) (i : Nat) : Outcome Buf :=
  match s.bufs[i]? with
  | some (some b) => .ok b
  | _ => .ub "no such live object"

/-- Store the outcome of a member function of buffer `i`. -/
def St.put (s : St) (i : Nat) (r : Res) : St × Obs :=
  (⟨r.heap, s.bufs.set i (some r.buf)⟩, if r.threw then .badAlloc else .unit)

/-- One operation of the program. -/
def step (e : Env) (s : St) : Op → Outcome (St × Obs)
  | .new c =>
    match ctor e s.heap c with
    | (h, none) => .ok (⟨h, s.bufs⟩, .badAlloc)
    | (h, some b) => .ok (⟨h, s.bufs ++ [some b]⟩, .unit)
  | .copy i => do
    let o ← s.buf i
    match ← copyCtor e s.heap o with
    | (h, none) => pure (⟨h, s.bufs⟩, .badAlloc)
    | (h, some b) => pure (⟨h, s.bufs ++ [some b]⟩, .unit)
  | .move i => do
    let o ← s.buf i
    pure (⟨s.heap, s.bufs.set i (some (moveCtor o).2) ++ [some (moveCtor o).1]⟩, .unit)
  | .destroy i => do
    let b ← s.buf i
    let (h, _) ← clear s.heap b
    pure (⟨h, s.bufs.set i none⟩, .unit)
  | .clear i => do
    let b ← s.buf i
    let (h, b) ← clear s.heap b
    pure (⟨h, s.bufs.set i (some b)⟩, .unit)
  | .append i src => do
    let b ← s.buf i
    let r ← append e s.heap b src
    pure (s.put i r)
  | .appendBuf i j => do
    let b ← s.buf i
    let o ← s.buf j
    let r ← appendBuf e s.heap b o
    pure (s.put i r)
  | .write i off src => do
    let b ← s.buf i
    let h ← write s.heap b off src
    pure (⟨h, s.bufs⟩, .unit)
  | .read i off n => do
    let b ← s.buf i
    let bs ← read s.heap b off n
    pure (s, .bytes bs)
  | .index i off => do
    let b ← s.buf i
    let bs ← index s.heap b off
    pure (s, .bytes bs)
  | .resize i n => do
    let b ← s.buf i
    let r ← resize e s.heap b n
    pure (s.put i r)
  | .reserve i n => do
    let b ← s.buf i
    let r ← reserve e s.heap b n
    pure (s.put i r)
  | .shrink i => do
    let b ← s.buf i
    let r ← shrinkToFit e s.heap b
    pure (s.put i r)
  | .release i => do
    let b ← s.buf i
    let bs ← load s.heap b.data 0 b.size
    pure (⟨s.heap, s.bufs.set i (some (release b).2)⟩, .owned (release b).1 bs)
  | .releaseSpan i => do
    let b ← s.buf i
    let (h, p, n, b) ← releaseSpan e s.heap b
    let bs ← load h p 0 n
    pure (⟨h, s.bufs.set i (some b)⟩, .owned p bs)

/-- A whole program: the observations, oldest first. -/
def run (e : Env) (s : St) : List Op → Outcome (St × List Obs)
  | [] => .ok (s, [])
  | op :: ops => do
    let (s, o) ← step e s op
    let (s, os) ← run e s ops
    pure (s, o :: os)

end Ab.BB
