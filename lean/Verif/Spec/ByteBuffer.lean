import Verif.Model.ByteBuffer
/-!
What a user expects of byte buffers: each live buffer is a plain list of bytes. Only the vocabulary of
operations and observations (`BB.Op`, `BB.Obs`) is shared with the model.
-/
namespace Ab.Spec

open BB (Op Obs)

/-- Each named buffer is a list of bytes, or gone. -/
abbrev Bufs := List (Option (List Byte))

/-- The operations documented to allocate, which may report `std::bad_alloc`. -/
def needsMemory : Op → Bool
  | .new _ | .copy _ | .append _ _ | .appendBuf _ _ | .resize _ _ | .reserve _ _ | .shrink _ => true
  | _ => false

/-- One operation on plain lists. Out-of-range reads and writes have no transition. -/
inductive BufStep : Bufs → Op → Bufs → Obs → Prop where
  | new (A : Bufs) (c : Nat) : BufStep A (.new c) (A ++ [some []]) .unit
  | copy {A : Bufs} {i l} : A[i]? = some (some l) → BufStep A (.copy i) (A ++ [some l]) .unit
  | move {A : Bufs} {i l} : A[i]? = some (some l) →
      BufStep A (.move i) (A.set i (some []) ++ [some l]) .unit
  | destroy {A : Bufs} {i l} : A[i]? = some (some l) → BufStep A (.destroy i) (A.set i none) .unit
  | clear {A : Bufs} {i l} : A[i]? = some (some l) → BufStep A (.clear i) (A.set i (some [])) .unit
  | append {A : Bufs} {i l src} : A[i]? = some (some l) →
      BufStep A (.append i src) (A.set i (some (l ++ src))) .unit
  | appendBuf {A : Bufs} {i j l m} : A[i]? = some (some l) → A[j]? = some (some m) →
      BufStep A (.appendBuf i j) (A.set i (some (l ++ m))) .unit
  | write {A : Bufs} {i l off src} : A[i]? = some (some l) → off + src.length ≤ l.length →
      BufStep A (.write i off src)
        (A.set i (some (l.take off ++ src ++ l.drop (off + src.length)))) .unit
  | read {A : Bufs} {i l off n} : A[i]? = some (some l) → off + n ≤ l.length →
      BufStep A (.read i off n) A (.bytes ((l.drop off).take n))
  | index {A : Bufs} {i l off b} : A[i]? = some (some l) → l[off]? = some b →
      BufStep A (.index i off) A (.bytes [b])
  | resizeDown {A : Bufs} {i l n} : A[i]? = some (some l) → n ≤ l.length →
      BufStep A (.resize i n) (A.set i (some (l.take n))) .unit
  | resizeUp {A : Bufs} {i l n ext} : A[i]? = some (some l) → l.length + ext.length = n →
      BufStep A (.resize i n) (A.set i (some (l ++ ext))) .unit
  | reserve {A : Bufs} {i l} {n : Nat} : A[i]? = some (some l) → BufStep A (.reserve i n) A .unit
  | shrink {A : Bufs} {i l} : A[i]? = some (some l) → BufStep A (.shrink i) A .unit
  | release {A : Bufs} {i l p} : A[i]? = some (some l) →
      BufStep A (.release i) (A.set i (some [])) (.owned p l)
  | releaseSpan {A : Bufs} {i l p} : A[i]? = some (some l) →
      BufStep A (.releaseSpan i) (A.set i (some [])) (.owned p l)
  /-- an operation that needs memory and does not get it leaves every buffer as it was -/
  | badAlloc {A : Bufs} {op : Op} : needsMemory op = true → BufStep A op A .badAlloc

/-- A sequence of operations on plain lists. -/
inductive BufRun : Bufs → List Op → Bufs → List Obs → Prop where
  | nil (A : Bufs) : BufRun A [] A []
  | cons {A A' A'' : Bufs} {op ops o os} : BufStep A op A' o → BufRun A' ops A'' os →
      BufRun A (op :: ops) A'' (o :: os)

/-- What the list with the same contents as the concrete buffer is: the first `size()` bytes at
`data()`. -/
def content (h : BB.Heap) (b : BB.Buf) : List Byte :=
  match b.data with
  | none => []
  | some a => ((h.blocks a).getD []).take b.size

/-- The lists a program state stands for. -/
def bufsOf (s : BB.St) : Bufs := s.bufs.map (fun ob => ob.map (content s.heap))

/-- Uses that the class itself survives: the object exists; sizes are those of real memory; the three
misuses the class mishandles are excluded: shrinking to zero bytes (`shrink_to_fit`, `release_span`,
`resize(0)` on a buffer with capacity), appending a buffer to itself when it has to grow, and offsets so
large that `offset + n` wraps. -/
def Careful (s : BB.St) (op : Op) : Prop :=
  let live (i : Nat) (P : BB.Buf → Prop) : Prop := ∃ b, s.bufs[i]? = some (some b) ∧ P b
  match op with
  | .new _ => True
  | .copy i | .move i | .destroy i | .clear i | .reserve i _ | .release i => live i (fun _ => True)
  | .append i src => live i (fun _ => src.length < 2^63)
  | .appendBuf i j => live i (fun b => i ≠ j ∨ b.size + b.size ≤ b.capa) ∧ live j (fun _ => True)
  | .write i off src => live i (fun _ => off + src.length < 2^64)
  | .read i off n => live i (fun _ => off + n < 2^64)
  | .index i off => live i (fun b => off < b.size)
  | .resize i n => live i (fun b => n ≠ 0 ∨ b.capa = 0)
  | .shrink i | .releaseSpan i => live i (fun b => b.size ≠ 0 ∨ b.capa = 0)

/-- No buffer is created with zero capacity. -/
def NoZero (s : BB.St) (op : Op) : Prop :=
  match op with
  | .new c => c ≠ 0
  | .copy i => ∀ b, s.bufs[i]? = some (some b) → b.capa ≠ 0
  | _ => True

/-- When a careful operation may end the process: a read or write outside the contents; an append to a
buffer created with zero capacity (only if those are around); `release_span`, which is `noexcept` but may
fail to shrink. -/
def MayTrap (zero : Bool) (A : Bufs) (op : Op) : Prop :=
  match op with
  | .write i off src => ∃ l, A[i]? = some (some l) ∧ l.length < off + src.length
  | .read i off n => ∃ l, A[i]? = some (some l) ∧ l.length < off + n
  | .append i _ | .appendBuf i _ => zero = true ∧ A[i]? = some (some [])
  | .releaseSpan _ => True
  | _ => False

/-- `P` holds before every operation the program gets to execute. -/
def Always (P : BB.St → Op → Prop) (e : BB.Env) : BB.St → List Op → Prop
  | _, [] => True
  | s, op :: ops => P s op ∧ ∀ s' o, BB.step e s op = .ok (s', o) → Always P e s' ops

end Ab.Spec
