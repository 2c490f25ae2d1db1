/-!
Shared vocabulary of the model: machine words and the outcome of running a piece of C++.
-/

namespace Ab

/-- `using Byte = std::uint8_t` (util/include/Ab/Bytes.hpp). -/
abbrev Byte := BitVec 8
/-- `std::uint32_t`. -/
abbrev U32 := BitVec 32
/-- `std::uint64_t`, `std::size_t` on the LP64 target. -/
abbrev U64 := BitVec 64

/-- What running a piece of C++ can do.
* `ok`    – it completes with a value;
* `throw` – it raises a C++ exception (message as in the source);
* `trap`  – it ends the process on purpose: `AB_ASSERT*` (util/include/Ab/Assert.hpp:1-85, always on),
            or `std::terminate` because an exception leaves a `noexcept` function;
* `ub`    – it executes undefined behaviour (reads or writes memory it does not own, overflows a
            signed integer, shifts by at least the width, ...);
* `fuel`  – a fuel-bounded model of a loop used up its fuel (the real program is still running). -/
inductive Outcome (α : Type u) where
  | ok (a : α)
  | throw (msg : String)
  | trap (why : String)
  | ub (why : String)
  | fuel
deriving Repr, DecidableEq

namespace Outcome

/-- Sequencing: anything but `ok` stops the program. -/
def bind {α : Type u} {β : Type v} (x : Outcome α) (f : α → Outcome β) : Outcome β :=
  match x with
  | ok a => f a
  | throw m => throw m
  | trap w => trap w
  | ub w => ub w
  | fuel => fuel

instance : Monad Outcome where
  pure := ok
  bind := bind

@[simp] theorem pure_eq (a : α) : (pure a : Outcome α) = ok a := rfl
@[simp] theorem ok_bind (a : α) (f : α → Outcome β) : (ok a >>= f) = f a := rfl
@[simp] theorem throw_bind (m : String) (f : α → Outcome β) : (throw m >>= f) = throw m := rfl
@[simp] theorem trap_bind (m : String) (f : α → Outcome β) : (trap m >>= f) = trap m := rfl
@[simp] theorem ub_bind (m : String) (f : α → Outcome β) : (ub m >>= f) = ub m := rfl
@[simp] theorem fuel_bind (f : α → Outcome β) : ((fuel : Outcome α) >>= f) = fuel := rfl

theorem bind_eq_ok {x : Outcome α} {f : α → Outcome β} {b : β} :
    (x >>= f) = ok b ↔ ∃ a, x = ok a ∧ f a = ok b := by
  cases x <;> simp

theorem bind_assoc' (x : Outcome α) (f : α → Outcome β) (g : β → Outcome γ) :
    ((x >>= f) >>= g) = (x >>= fun a => f a >>= g) := by
  cases x <;> rfl

/-- `AB_ASSERT(c)` (util/include/Ab/Assert.hpp). -/
def assert (c : Bool) (why : String) : Outcome Unit :=
  if c then ok () else trap why

@[simp] theorem assert_true (w : String) : assert true w = ok () := rfl
@[simp] theorem assert_false (w : String) : assert false w = trap w := rfl

/-- The program completed normally. -/
def isOk : Outcome α → Bool
  | ok _ => true
  | _ => false

/-- The program raised an exception. -/
def isThrow : Outcome α → Bool
  | throw _ => true
  | _ => false

/-- The program ended the process. -/
def isTrap : Outcome α → Bool
  | trap _ => true
  | _ => false

/-- The program executed undefined behaviour. -/
def isUb : Outcome α → Bool
  | ub _ => true
  | _ => false

end Outcome

end Ab
