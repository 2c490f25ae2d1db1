import Verif.Spec.Wasm
/-! What C129 says: WebAssembly files that lost their end. -/
namespace Ab.Spec.Wasm
open Ab Ab.Wasm

/-- The bytes left of a vector when everything after its first `k` elements is lost: the number of elements,
and fewer elements than that. -/
def CutVec (P : List Byte → α → Prop) (k : Nat) (bs : List Byte) (l : List α) : Prop :=
  k < l.length ∧ ∃ c cs, bs = c ++ cs ∧ l.length < 2 ^ 32 ∧ EncU32 c (BitVec.ofNat 32 l.length) ∧ EncSeq P cs (l.take k)

/-- The bytes left of the contents of a section when everything after the first `k` entries is lost. Not for
custom, table, memory and start sections. -/
def CutContent (L : List Byte → Prop) (k : Nat) (bs : List Byte) : Content → Prop
  | .types l => CutVec EncFuncType k bs l
  | .imports l => CutVec EncImport k bs l
  | .functions l => CutVec EncU32 k bs l
  | .globals l => CutVec (EncGlobal L) k bs l
  | .exports l => CutVec EncExport k bs l
  | .elements l => CutVec (EncElements L) k bs l
  | .code l => CutVec EncFunction k bs l
  | .data l => CutVec (EncData L) k bs l
  | _ => False

/-- How many entries a section says it has. -/
def Content.count : Content → Nat
  | .types l => l.length
  | .imports l => l.length
  | .functions l => l.length
  | .tables l => l.length
  | .memories l => l.length
  | .globals l => l.length
  | .exports l => l.length
  | .elements l => l.length
  | .code l => l.length
  | .data l => l.length
  | _ => 0

/-- The visitor is told the number of types and imports. -/
def countCalls (n : Nat) : Content → List Call
  | .types _ => [.event (.typeSection (BitVec.ofNat 64 n))]
  | .imports _ => [.event (.importSection (BitVec.ofNat 64 n))]
  | _ => []

/-- What it is told about the first `k` entries. -/
def firstCalls (k : Nat) : Content → List Call
  | .types l => (l.take k).map fun t => .event (.functionType t)
  | .imports l => (l.take k).map fun e => .event (.importEntry e)
  | .functions l => (l.take k).zipIdx.map fun (t, i) => .event (.functionEntry i t)
  | .globals l => (l.take k).map fun g => .event (.globalEntry g.1 g.2)
  | .exports l => (l.take k).map fun e => .event (.exportEntry e)
  | .elements l => (l.take k).flatMap elementCalls
  | .code l => (l.take k).zipIdx.flatMap fun (f, i) =>
      [.body i ⟨f.size, f.locals⟩ f.code, .event (.functionBodyEnd ⟨f.size, f.locals⟩)]
  | .data l => (l.take k).map fun d => .event (.dataSegment d)
  | _ => []

/-- The bytes left of a section that is cut after its number, after its length, or between its entries; the
length it is taken to have; how many entries, and how many of them are there; what is told before the end is
met; and whether the end was met before the entries. A length or a number of entries that is not there is taken
to be 127. -/
inductive CutSection (L : List Byte → Prop) (c : Content) : List Byte → U32 → Nat → Nat → List Call → Bool → Prop
  | number : CutSection L c [c.code'] 127#32 127 0 (countCalls 127 c) true
  | length {n len} : EncU32 n len → CutSection L c (c.code' :: n) len 127 0 (countCalls 127 c) true
  | entries {n len k p} : EncU32 n len → CutContent L k p c →
      CutSection L c (c.code' :: (n ++ p)) len c.count k (countCalls c.count c ++ firstCalls k c) false

/-- What meeting the end of the file does in the sections that notice it. `met` says that the end was met
before the first entry. -/
def endResult (met : Bool) : Content → Outcome α
  | .types _ => if met then .throw "Could not decode number" else .throw "Expected function type, got something else."
  | .globals _ => if met then .throw "Could not decode number" else .trap "exit(-1)"
  | .imports _ => .throw "Could not decode number"
  | .exports _ => .throw "Could not decode number"
  | .code _ => .throw "Could not decode number"
  | _ => .trap "exit(-1)"

/-- The sections that notice that the file ends: all that have entries but function sections. -/
def Notices : Content → Prop
  | .types _ => True
  | .imports _ => True
  | .globals _ => True
  | .exports _ => True
  | .elements _ => True
  | .code _ => True
  | .data _ => True
  | _ => False

/-- What the visitor is told about the entries `k` to `n` of a function section, which are not there: all have
the type 127. -/
def madeUp (k n : Nat) : List Call := (List.range' k (n - k)).map fun i => .event (.functionEntry i 127#32)

end Ab.Spec.Wasm
