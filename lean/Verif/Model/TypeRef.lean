import Verif.Model.Module
/-!
Model of `Func::type()` (core/include/Ab/Func.hpp:48): the function holds a pointer to an entry of its module's
`std::vector<FuncType>` (core/include/Ab/Module.hpp:109-117), taken while the code section was decoded
(core/src/ab-core-Loading.cpp:208). The vector is filled by `push` (Loading.cpp:156,
util/include/Ab/VectorUtilities.hpp:11-15), that is by `emplace_back` without any `reserve`.
-/
namespace Ab

/-- The capacity of a `std::vector` after `n` calls of `emplace_back` on an empty one, where `grow` is the
implementation's growth policy: the vector reallocates exactly when it is full. -/
def capAfter (grow : Nat → Nat) : Nat → Nat
  | 0 => 0
  | n + 1 => if n < capAfter grow n then capAfter grow n else grow (capAfter grow n)

/-- The growth policy of libstdc++ and libc++: double, starting from 1. -/
def doubling (c : Nat) : Nat := if c = 0 then 1 else 2 * c

/-- `*func->type()` (Func.hpp:48; used by `static_call`, core/include/Ab/VirtualMachine.hpp:179) for a function `f` of the
module `m`. `f.typesLen` is the number of types when the pointer was taken; the pointer dangles
when the vector has been reallocated since, that is when its capacity has changed. -/
def Func.derefType (grow : Nat → Nat) (m : Module) (f : Func) : Outcome FuncType :=
  if capAfter grow f.typesLen = capAfter grow m.types.length then
    match m.types[f.typeIdx]? with
    | some t => .ok t
    | none => .ub "read past the end of the type table"
  else .ub "read through a dangling FuncType pointer"

end Ab
