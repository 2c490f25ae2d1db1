import Verif.Basic
/-!
Model of util/include/Ab/Maybe.hpp and MaybeStorage.hpp for a type that has no null value of its own
(`MaybeStorage<Type, false>`). Nullable types, `map` and `apply` are in Model/MaybeNull. Not modelled: assignment from another
instantiation, exceptions from the type's constructors. Assignment from a `const Maybe` and `m = NOTHING` do
not compile (the implicit copy assignment operator is deleted, because a move constructor is declared, and
overload resolution picks it).
-/
namespace Ab.MaybeM

variable {α : Type}

/-- `MaybeStorage<Type, false>` (MaybeStorage.hpp:107-112): the object living in the union, if any, and the
flag. -/
structure Cell (α : Type) where
  obj    : Option α
  isJust : Bool
deriving Repr, DecidableEq

/-- The program's state: its variables, and how many objects of the type were ever constructed in and
destroyed by a `Maybe`. -/
structure St (α : Type) where
  var       : Nat → Option (Cell α)
  made      : Nat
  destroyed : Nat

def St.init : St α := ⟨fun _ => none, 0, 0⟩

def St.set (s : St α) (i : Nat) (c : Option (Cell α)) : St α :=
  { s with var := fun k => if k = i then c else s.var k }

/-- The live variable `i`. Using one that is not is no program. -/
def St.get (s : St α) (i : Nat) : Outcome (Cell α) :=
  match s.var i with
  | some c => .ok c
  | none => .ub "no such variable"

/-- `set(Nothing)` (MaybeStorage.hpp:85-90): destroys the object if the flag is set. -/
def setNothing (s : St α) (i : Nat) : Outcome (St α) := do
  let c ← s.get i
  if c.isJust then
    match c.obj with
    | none => .ub "destroying what does not live"
    | some _ => pure { (s.set i (some ⟨none, false⟩)) with destroyed := s.destroyed + 1 }
  else pure s

/-- `*other` of variable `j` (Maybe.hpp:146-171). -/
def deref (s : St α) (j : Nat) : Outcome α := do
  let c ← s.get j
  match c.obj with
  | none => .ub "reading what does not live"
  | some v => pure v

/-- `set(InPlace, *other)` (MaybeStorage.hpp:92-97): the argument is a reference to variable `j`'s object and
is read after variable `i`'s has been destroyed. With `mv`, the argument is an rvalue and is left moved-from. -/
def setFrom (moved : α → α) (mv : Bool) (s : St α) (i j : Nat) : Outcome (St α) := do
  let s ← setNothing s i
  let v ← deref s j
  let s := if mv then s.set j (some ⟨some (moved v), true⟩) else s
  pure { (s.set i (some ⟨some v, true⟩)) with made := s.made + 1 }

/-- What a program does. -/
inductive Op (α : Type)
  | nothing (i : Nat)          -- `Maybe<T> i;` or `Maybe<T> i(NOTHING);`
  | value (i : Nat) (v : α)    -- `Maybe<T> i(v);` or `(inPlace, ...)`
  | copy (i j : Nat)           -- `Maybe<T> i(j);`
  | move (i j : Nat)           -- `Maybe<T> i(std::move(j));`
  | assign (i j : Nat)         -- `i = j;`
  | moveAssign (i j : Nat)     -- `i = std::move(j);`
  | drop (i : Nat)             -- the end of `i`'s life
deriving Repr, DecidableEq

/-- A new variable must not be in use. -/
def St.fresh (s : St α) (i : Nat) : Outcome Unit :=
  match s.var i with
  | none => .ok ()
  | some _ => .ub "name in use"

/-- The copy and move constructors (Maybe.hpp:67-83). -/
def construct (moved : α → α) (mv : Bool) (s : St α) (i j : Nat) : Outcome (St α) := do
  s.fresh i
  let c ← s.get j
  let s := s.set i (some ⟨none, false⟩)
  if c.isJust then setFrom moved mv s i j else pure s

/-- The assignment operators (Maybe.hpp:85-107). They return a copy of the variable by value, which is
constructed (67-71) and destroyed (MaybeStorage.hpp:75-79) at once. -/
def assign (moved : α → α) (mv : Bool) (s : St α) (i j : Nat) : Outcome (St α) := do
  let _ ← s.get i
  let c ← s.get j
  let s ← if c.isJust then setFrom moved mv s i j else pure s
  let d ← s.get i
  if d.isJust then
    match d.obj with
    | none => .ub "copying what does not live"
    | some _ => pure { s with made := s.made + 1, destroyed := s.destroyed + 1 }
  else pure s

/-- One operation. -/
def step (moved : α → α) (s : St α) : Op α → Outcome (St α)
  | .nothing i => do
    s.fresh i
    pure (s.set i (some ⟨none, false⟩))                      -- Maybe.hpp:42-47, MaybeStorage.hpp:67-68
  | .value i v => do
    s.fresh i
    pure { (s.set i (some ⟨some v, true⟩)) with made := s.made + 1 }  -- Maybe.hpp:50-65, MaybeStorage.hpp:70-73
  | .copy i j => construct moved false s i j
  | .move i j => construct moved true s i j
  | .assign i j => assign moved false s i j
  | .moveAssign i j => assign moved true s i j
  | .drop i => do                                            -- MaybeStorage.hpp:75-79
    let s ← setNothing s i
    pure (s.set i none)

/-- A program. -/
def run (moved : α → α) : St α → List (Op α) → Outcome (St α)
  | s, [] => .ok s
  | s, o :: l => do
    let s ← step moved s o
    run moved s l

end Ab.MaybeM
