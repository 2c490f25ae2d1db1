import Verif.Spec.Module
/-!
The language of module files, as relations between what is left of the file before and after an item is
read. Nothing here mentions positions, decoders or exceptions.
-/
namespace Ab.Spec

/-- A base-128 number of at most five bytes, taken modulo 2^32. -/
def Num (inp : List Byte) (v : Nat) (rest : List Byte) : Prop :=
  ∃ enc, IsLeb enc ∧ enc.length ≤ 5 ∧ inp = enc ++ rest ∧ v = lebValue enc % 2 ^ 32

/-- A number as a 32-bit word. -/
def Word (inp : List Byte) (v : U32) (rest : List Byte) : Prop := Num inp v.toNat rest

/-- A function type: the byte 0x60, the argument count and the arguments, the result count and the
results. -/
def TypeItem (inp : List Byte) (t : FuncType) (rest : List Byte) : Prop :=
  ∃ a b, inp = 0x60#8 :: a ∧ Num a t.args.length (t.args ++ b) ∧ Num b t.rets.length (t.rets ++ rest)

/-- Items one after the other. -/
inductive Many {α : Type} (P : List Byte → α → List Byte → Prop) : List Byte → List α → List Byte → Prop where
  | nil (inp : List Byte) : Many P inp [] inp
  | cons {inp x mid xs rest} : P inp x mid → Many P mid xs rest → Many P inp (x :: xs) rest

/-- A section's size field, the item count and the items; the size is that of count and items. -/
def Sized {α : Type} (P : List Byte → α → List Byte → Prop) (inp : List Byte) (xs : List α)
    (rest : List Byte) : Prop :=
  ∃ size a b, Num inp size a ∧ Num a xs.length b ∧ Many P b xs rest ∧ a.length = size + rest.length

/-- A code entry: its size, and within the file from there on a register count. The next entry follows
`size` bytes after the size field; the body starts after the register count (`body` is the rest of the file
from there). -/
def Entry (inp : List Byte) (size : Nat) (start : List Byte) (nregs : U32) (body : List Byte) : Prop :=
  Num inp size start ∧ Word start nregs body

/-- The type of function number `i` among the declarations read so far. -/
def TypeOf (m : Module) (i : Nat) (ti : U32) (t : FuncType) : Prop :=
  m.funcTypes[i]? = some ti ∧ m.types[ti.toNat]? = some t

/-- Slots a value takes: one for i32 (0x7f) and f32 (0x7d), two for i64 (0x7e) and f64 (0x7c); every other
byte takes one away. -/
def slotsOf (t : Byte) : Int :=
  match t.toNat with
  | 0x7f => 1
  | 0x7e => 2
  | 0x7d => 1
  | 0x7c => 2
  | _ => -1

/-- Slots of several values, modulo 2^32. -/
def slotSum (ts : List Byte) : U32 := BitVec.ofInt 32 (ts.map slotsOf).sum

/-- The code entries of the functions from number `i` on; `total` is the length of the file. -/
inductive Bodies (total : Nat) (m : Module) : Nat → List Byte → List Func → List Byte → Prop where
  | nil (i : Nat) (inp : List Byte) : Bodies total m i inp [] inp
  | cons {i inp size start nregs body ti t fs rest} : Entry inp size start nregs body →
      size ≤ start.length → TypeOf m i ti t → Bodies total m (i + 1) (start.drop size) fs rest →
      Bodies total m i inp
        ({ typeIdx := ti.toNat, typesLen := m.types.length, type := t, body := total - body.length,
           varNregs := nregs, argNregs := slotSum t.args, retNregs := slotSum t.rets,
           nregs := nregs + slotSum t.args } :: fs) rest

/-- One section: a type, function or code section. The size of a code section is not looked at. -/
inductive SectionItem (total : Nat) : Module → List Byte → Module → List Byte → Prop where
  | types {m a ts rest} : Sized TypeItem a ts rest →
      SectionItem total m (0x01#8 :: a) ⟨m.types ++ ts, m.funcTypes, m.funcs⟩ rest
  | decls {m a ds rest} : Sized Word a ds rest →
      SectionItem total m (0x03#8 :: a) ⟨m.types, m.funcTypes ++ ds, m.funcs⟩ rest
  | code {m a size b c fs rest} : Num a size b → Num b m.funcTypes.length c →
      Bodies total m 0 c fs rest → fs.length = m.funcTypes.length →
      SectionItem total m (0x0a#8 :: a) ⟨m.types, m.funcTypes, m.funcs ++ fs⟩ rest

/-- Sections one after the other. -/
inductive Sections (total : Nat) : Module → List Byte → Module → List Byte → Prop where
  | nil (m : Module) (inp : List Byte) : Sections total m inp m inp
  | cons {m inp m1 mid m2 rest} : SectionItem total m inp m1 mid → Sections total m1 mid m2 rest →
      Sections total m inp m2 rest

/-- The file is a header and sections to its end. -/
def Loads (bs : List Byte) (lm : Module) : Prop :=
  ∃ rest, bs = header ++ rest ∧ Sections bs.length ⟨[], [], []⟩ rest lm []

/-- What ends the process: a section of another known kind, or a code entry that is too long for the file or
belongs to a function whose type does not exist. -/
inductive Deadly (total : Nat) (m : Module) : List Byte → Prop where
  | unsupported {c a size b} : c.toNat ≤ 11 → c ≠ 0x01#8 → c ≠ 0x03#8 → c ≠ 0x0a#8 → Num a size b →
      Deadly total m (c :: a)
  | entry {a ssize b c fs d size start nregs body} : Num a ssize b → Num b m.funcTypes.length c →
      Bodies total m 0 c fs d → fs.length < m.funcTypes.length → Entry d size start nregs body →
      (start.length < size ∨ ¬ ∃ ti t, TypeOf m fs.length ti t) →
      Deadly total m (0x0a#8 :: a)

/-- The file is a header, sections, and then something deadly. -/
def Aborts (bs : List Byte) : Prop :=
  ∃ rest m r, bs = header ++ rest ∧ Sections bs.length ⟨[], [], []⟩ rest m r ∧ Deadly bs.length m r

end Ab.Spec
