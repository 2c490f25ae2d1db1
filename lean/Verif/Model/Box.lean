import Verif.Basic
/-!
Model of `Box<T>` (util/include/Ab/Box.hpp).

A program has variables of type `T` and boxes; `moved v` is what a move leaves behind in an object that held `v` (for `int` the value
itself, for `std::string` the empty string).
Which overload an expression picks was checked with a compiler on a stand-alone imitation of the overload set.
Simplification: boxes of one type; a box constructed under a name in use replaces the old one; assigning a `T` to itself leaves it alone.
-/
namespace Ab.Box

/-- The variables and the boxes of a program; `none`: no such object. -/
structure State (V : Type) where
  vars  : Nat → Option V
  boxes : Nat → Option V

/-- What a program does; `x` is a variable, `b` and `c` are boxes. -/
inductive Op (V : Type)
  /-- `T x = v;` or `x = v;` -/
  | var (x : Nat) (v : V)
  /-- `Box<T> b{v};` with a temporary. -/
  | make (b : Nat) (v : V)
  /-- `Box<T> b{x};` -/
  | makeFrom (b x : Nat)
  /-- `Box<T> b{std::move(x)};` -/
  | makeMove (b x : Nat)
  /-- `Box<T> b{c};`, `c` a constant or not. -/
  | copyBox (b c : Nat)
  /-- `Box<T> b{std::move(c)};` -/
  | moveBox (b c : Nat)
  /-- `b = v;` with a temporary. -/
  | give (b : Nat) (v : V)
  /-- `b = x;`, `x` a variable. -/
  | giveVar (b x : Nat)
  /-- `b = x;`, `x` a constant (`std::as_const(x)`). -/
  | giveConst (b x : Nat)
  /-- `b = std::move(x);` -/
  | giveMove (b x : Nat)
  /-- `b = c;`, `c` a variable. -/
  | assign (b c : Nat)
  /-- `b = c;`, `c` a constant (`std::as_const(c)`). -/
  | assignConst (b c : Nat)
  /-- `b() = v;` or `b.value() = v;` -/
  | poke (b : Nat) (v : V)

variable {V : Type} (moved : V → V)

def State.set (f : Nat → Option V) (i : Nat) (v : V) : Nat → Option V := fun j => if j = i then some v else f j

def get (f : Nat → Option V) (i : Nat) : Outcome V :=
  match f i with
  | some v => .ok v
  | none => .ub "no such object"

/-- One step. -/
def step (s : State V) : Op V → Outcome (State V)
  | .var x v => .ok { s with vars := State.set s.vars x v }
  | .make b v => .ok { s with boxes := State.set s.boxes b v }                -- `Box(Type&&)`, Box.hpp:36
  | .makeFrom b x => do                                                       -- `Box(Type&)`, `Box(const Type&)`, 30-34
    let v ← get s.vars x
    .ok { s with boxes := State.set s.boxes b v }
  | .makeMove b x => do                                                       -- `Box(Type&&)`, 36-37
    let v ← get s.vars x
    .ok ⟨State.set s.vars x (moved v), State.set s.boxes b v⟩
  | .copyBox b c => do                                                        -- `Box(Box<Other>&)`, 40-42, and the implicit copy constructor
    let v ← get s.boxes c
    .ok { s with boxes := State.set s.boxes b v }
  | .moveBox b c => do                                                        -- `Box(Box<Other>&&)`, 50-52
    let v ← get s.boxes c
    .ok { s with boxes := State.set (State.set s.boxes c (moved v)) b v }
  | .give b v => do                                                           -- `operator=(Other&&)`, 94-98
    let _ ← get s.boxes b
    .ok { s with boxes := State.set s.boxes b v }
  | .giveVar b x => do                                                        -- `operator=(Other&&)` with `Other = T&`: moves, 94-98
    let _ ← get s.boxes b
    let v ← get s.vars x
    .ok ⟨State.set s.vars x (moved v), State.set s.boxes b v⟩
  | .giveConst b x => do                                                      -- `operator=(const Other&)`, 88-92
    let _ ← get s.boxes b
    let v ← get s.vars x
    .ok { s with boxes := State.set s.boxes b v }
  | .giveMove b x => do                                                       -- `operator=(Other&&)`, 94-98
    let _ ← get s.boxes b
    let v ← get s.vars x
    .ok ⟨State.set s.vars x (moved v), State.set s.boxes b v⟩
  | .assign b c => do                                                         -- `operator=(Box<Other>&)`, 83-86: moves, and returns nothing
    let _ ← get s.boxes b
    let _ ← get s.boxes c
    .ub "flowing off the end of a function with a result"
  | .assignConst b c => do                                                    -- the implicit copy assignment
    let _ ← get s.boxes b
    let v ← get s.boxes c
    .ok { s with boxes := State.set s.boxes b v }
  | .poke b v => do                                                           -- `operator()() &`, `value() &`, 63-73
    let _ ← get s.boxes b
    .ok { s with boxes := State.set s.boxes b v }

/-- A program. -/
def run (s : State V) : List (Op V) → Outcome (State V)
  | [] => .ok s
  | o :: os => do
    let s ← step moved s o
    run s os

/-- At the start there is nothing. -/
def State.start : State V := ⟨fun _ => none, fun _ => none⟩

end Ab.Box
