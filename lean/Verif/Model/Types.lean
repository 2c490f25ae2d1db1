import Verif.Basic

/-!
Model of core/include/Ab/Types.hpp, core/include/Ab/Func.hpp (value parts) and the hash helpers of
util/include/Ab/HashUtilities.hpp that they use.

`enum class ValType : std::uint8_t` (core/include/Ab/ModuleConstants.hpp:31-39) can hold any byte (the loader
stores unvalidated bytes in it), so a value type is a `Byte`.
-/

namespace Ab

/-- core/include/Ab/ModuleConstants.hpp:32-38 -/
def I32 : Byte := 0x7f#8
def I64 : Byte := 0x7e#8
def F32 : Byte := 0x7d#8
def F64 : Byte := 0x7c#8
def ANYFUNC : Byte := 0x70#8
def FUNC : Byte := 0x60#8
def EMPTY : Byte := 0x40#8

/-- `SIZEOF_SLOT` (Types.hpp:14). -/
def SIZEOF_SLOT : Nat := 4

/-- `nreg` (Types.hpp:146-159); the default case returns `SIZE_MAX` as a `std::size_t`. -/
def nreg (t : Byte) : U64 :=
  if t = I32 then 1#64
  else if t = I64 then 2#64
  else if t = F32 then 1#64
  else if t = F64 then 2#64
  else BitVec.allOnes 64

/-- `FuncType` (Types.hpp:209-281), data members. -/
structure FuncType where
  args : List Byte
  rets : List Byte
deriving Repr, DecidableEq

/-- The accumulation loop shared by `arg_nregs` and `ret_nregs` (Types.hpp:252-258, 264-270):
`n += nreg(ty)` with a 32-bit `n`. -/
def sumNregs (ts : List Byte) : U32 :=
  ts.foldl (fun n ty => (n.setWidth 64 + nreg ty).setWidth 32) 0#32

/-- `FuncType::arg_nregs` (Types.hpp:252-258). -/
def FuncType.argNregs (t : FuncType) : U32 := sumNregs t.args

/-- `FuncType::ret_nregs` (Types.hpp:264-270). -/
def FuncType.retNregs (t : FuncType) : U32 := sumNregs t.rets

/-- `FuncType::arg_nbytes` (Types.hpp:260): `std::uint32_t` result of a `std::size_t` product. -/
def FuncType.argNbytes (t : FuncType) : U32 :=
  (t.argNregs.setWidth 64 * BitVec.ofNat 64 SIZEOF_SLOT).setWidth 32

/-- `FuncType::ret_nbytes` (Types.hpp:272). -/
def FuncType.retNbytes (t : FuncType) : U32 :=
  (t.retNregs.setWidth 64 * BitVec.ofNat 64 SIZEOF_SLOT).setWidth 32

/-- The element-wise comparison loop of `FuncType::operator==` (Types.hpp:235-239, 240-244), on two
vectors of which the loop bound is the first's size; `rhs[i]` past the end would be `ub`. -/
def vecEqLoop (xs ys : List Byte) : Outcome Bool :=
  match xs, ys with
  | [], _ => .ok true
  | _ :: _, [] => .ub "vector index out of range"
  | x :: xs, y :: ys => if x ≠ y then .ok false else vecEqLoop xs ys

/-- `FuncType::operator==` (Types.hpp:228-246). -/
def FuncType.eq (a b : FuncType) : Outcome Bool :=
  if a.args.length ≠ b.args.length then .ok false
  else if a.rets.length ≠ b.rets.length then .ok false
  else do
    let r ← vecEqLoop a.args b.args
    if !r then .ok false
    else do
      let r ← vecEqLoop a.rets b.rets
      if !r then .ok false else .ok true

/-- `hash(std::size_t)` (util/include/Ab/HashUtilities.hpp:35-42). -/
def hash64 (x : U64) : U64 :=
  let x := x ^^^ (x >>> 30)
  let x := x * 0xbf58476d1ce4e5b9#64
  let x := x ^^^ (x >>> 27)
  let x := x * 0x94d049bb133111eb#64
  let x := x ^^^ (x >>> 31)
  x

/-- `mix(a, b)` (HashUtilities.hpp:17). -/
def mix (a b : U64) : U64 := a * 37#64 + b

/-- `HASH_SEED` (HashUtilities.hpp:13). -/
def HASH_SEED : U64 := 17#64

/-- `FuncType::hash` (Types.hpp:215-224): `Ab::hash(args.size(), rets.size())` is
`combine_hashes(hash(args.size()), hash(rets.size()))` (HashUtilities.hpp:53-56), then
`mix_hash(h, ty)` per element; `stdHash` stands for `std::hash<ValType>`, which is not part of the repo. -/
def FuncType.hash (stdHash : Byte → U64) (t : FuncType) : U64 :=
  let h := mix (mix HASH_SEED (hash64 (BitVec.ofNat 64 t.args.length)))
            (hash64 (BitVec.ofNat 64 t.rets.length))
  let h := t.args.foldl (fun h ty => mix h (stdHash ty)) h
  t.rets.foldl (fun h ty => mix h (stdHash ty)) h

/-- `Limits` (Types.hpp:179-207), data members. -/
structure Limits where
  min : U32
  max : U32
  hasMax : Bool
deriving Repr, DecidableEq

/-- `Limits::operator==` (Types.hpp:189-200). -/
def Limits.eq (a b : Limits) : Bool :=
  if a.min ≠ b.min then false
  else if a.hasMax ≠ b.hasMax then false
  else if a.hasMax && a.max ≠ b.max then false
  else true

/-- `Limits::hash` (Types.hpp:181-187); `stdHash` stands for `std::hash<std::uint32_t>`. Note that the
code mixes `min` itself, not its hash, when there is a maximum. -/
def Limits.hash (stdHash : U32 → U64) (l : Limits) : U64 :=
  let h := stdHash l.min
  if l.hasMax then mix (l.min.setWidth 64) (stdHash l.max) else h

/-! ### Slot layout (compile-time templates) -/

/-- The C++ types accepted by `to_val_type` (Types.hpp:21-43). -/
inductive CType where
  | u64 | i64 | u32 | i32 | f32 | f64
deriving Repr, DecidableEq

/-- `to_val_type` (Types.hpp:27-43). -/
def CType.toValType : CType → Byte
  | .u64 => I64
  | .i64 => I64
  | .u32 => I32
  | .i32 => I32
  | .f32 => F32
  | .f64 => F64

/-- `sizeof(T)` on the LP64 target. -/
def CType.sizeof : CType → Nat
  | .u64 | .i64 | .f64 => 8
  | .u32 | .i32 | .f32 => 4

/-- `slots_taken<V>` (Types.hpp:56-66); only defined for these four value types (other
instantiations do not compile). -/
def slotsTaken (v : Byte) : Option Nat :=
  if v = I32 then some 1 else if v = I64 then some 2 else if v = F32 then some 1
  else if v = F64 then some 2 else none

/-- `slot_sizeof<T>` (Types.hpp:74-75). -/
def CType.slots (t : CType) : Nat := (slotsTaken t.toValType).getD 0

/-- `nth_slot_index_v<N, Ts...>` (Types.hpp:94-106): slots taken by the first `n` types. -/
def nthSlotIndex (n : Nat) (ts : List CType) : Nat := ((ts.take n).map CType.slots).sum

/-- `nth_slot_offset_v<N, Ts...>` (Types.hpp:108-109). -/
def nthSlotOffset (n : Nat) (ts : List CType) : Nat := nthSlotIndex n ts * SIZEOF_SLOT

/-- `types_match<Ts...>` (Types.hpp:165-177): size comparison, then element by element;
an index past the end would be `ub`. -/
def typesMatchLoop (fix dyn : List Byte) : Outcome Bool :=
  match fix, dyn with
  | [], _ => .ok true
  | _ :: _, [] => .ub "vector index out of range"
  | x :: xs, y :: ys => if x ≠ y then .ok false else typesMatchLoop xs ys

@[inherit_doc typesMatchLoop]
def typesMatch (ts : List CType) (dyn : List Byte) : Outcome Bool :=
  let fix := ts.map CType.toValType
  if fix.length ≠ dyn.length then .ok false else typesMatchLoop fix dyn

/-! ### Func (core/include/Ab/Func.hpp:36-81) -/

/-- A compiled function, as created by `decode_code_section`.
`typeIdx` and `typesLen` record what the `const FuncType* type_` member points at: entry `typeIdx` of
the module's type table as it was when the table had `typesLen` entries. `type` is the content
of that entry at construction time (its register counts are cached there, Func.hpp:38-44).
`body` is the offset of the body pointer from the start of the module bytes (the stored span has size 0). -/
structure Func where
  typeIdx : Nat
  typesLen : Nat
  type : FuncType
  body : Nat
  varNregs : U32
  argNregs : U32
  retNregs : U32
  nregs : U32
deriving Repr, DecidableEq

/-- `Func::Func(type, body, var_nregs)` (Func.hpp:38-44); `nregs_(var_nregs_ + arg_nregs_)` wraps. -/
def Func.make (typeIdx typesLen : Nat) (type : FuncType) (body : Nat) (varNregs : U32) : Func where
  typeIdx := typeIdx
  typesLen := typesLen
  type := type
  body := body
  varNregs := varNregs
  argNregs := type.argNregs
  retNregs := type.retNregs
  nregs := varNregs + type.argNregs

/-- `Func::nreg_bytes` (Func.hpp:68): 32-bit product. -/
def Func.nregBytes (f : Func) : U32 := f.nregs * 4#32

end Ab
