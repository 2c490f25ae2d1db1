import Verif.Basic
/-!
Model of util/include/Ab/Result.hpp: `Result<T, E>`, for types that are either trivial or have a destructor, a copy
constructor and an assignment operator of their own ("class types"). Not modelled: exceptions from those, other
instantiations than `Result<T, E>` itself. Not modelled because it does not compile: assignment from a `const Ok`
(131-139 names `Kind::ERROR`, which does not exist), from another `Result` by move or from another instantiation (165-187
call `isValue`, `value` and `error`, which do not exist), and, for class types, from the same instantiation by copy (the
implicit copy assignment is deleted); copying a `const Result` of class types (the implicit copy constructor is deleted).
-/
namespace Ab.ResultM

variable {α ε : Type}

/-- The two types: are they trivial, and what does moving out of an object leave in it. -/
structure Types (α ε : Type) where
  trivT  : Bool
  trivE  : Bool
  movedT : α → α
  movedE : ε → ε

/-- The object living in the union (Result.hpp:189-192), if any, and `kind_ == Kind::OK` (194). -/
structure Cell (α ε : Type) where
  obj : Option (Sum α ε)
  ok  : Bool
deriving Repr, DecidableEq

/-- The program's state: its variables, and how many objects of class type were constructed in and destroyed by a
`Result`. -/
structure St (α ε : Type) where
  var       : Nat → Option (Cell α ε)
  made      : Nat
  destroyed : Nat

def St.init : St α ε := ⟨fun _ => none, 0, 0⟩

def St.set (s : St α ε) (i : Nat) (c : Option (Cell α ε)) : St α ε :=
  { s with var := fun k => if k = i then c else s.var k }

/-- The live variable `i`. Using one that is not is no program. -/
def St.get (s : St α ε) (i : Nat) : Outcome (Cell α ε) :=
  match s.var i with
  | some c => .ok c
  | none => .ub "no such variable"

/-- A new variable must not be in use. -/
def St.fresh (s : St α ε) (i : Nat) : Outcome Unit :=
  match s.var i with
  | none => .ok ()
  | some _ => .ub "name in use"

/-- 1 for a class type. -/
def one (trivial : Bool) : Nat := if trivial then 0 else 1

/-- `operator()` (Result.hpp:111-119): the assertion, then the object. -/
def Cell.value (c : Cell α ε) : Outcome α :=
  if c.ok then
    match c.obj with
    | some (.inl v) => .ok v
    | _ => .ub "reading what does not live"
  else .trap "assertion failed"

/-- `err()` (Result.hpp:121-129). -/
def Cell.error (c : Cell α ε) : Outcome ε :=
  if c.ok then .trap "assertion failed"
  else
    match c.obj with
    | some (.inr e) => .ok e
    | _ => .ub "reading what does not live"

/-- `SafeDestructor<T>{}(value_)` (SafeDestructor.hpp): nothing for a trivial type. -/
def destroyValue (t : Types α ε) (c : Cell α ε) : Outcome (Cell α ε × Nat) :=
  if t.trivT then .ok (c, 0)
  else
    match c.obj with
    | some (.inl _) => .ok ({ c with obj := none }, 1)
    | _ => .ub "destroying what does not live"

/-- `SafeDestructor<E>{}(err_)`. -/
def destroyError (t : Types α ε) (c : Cell α ε) : Outcome (Cell α ε × Nat) :=
  if t.trivE then .ok (c, 0)
  else
    match c.obj with
    | some (.inr _) => .ok ({ c with obj := none }, 1)
    | _ => .ub "destroying what does not live"

/-- `value_ = x`: an assignment to an object that lives; a trivial one that does not live starts living by being assigned
to ([class.union]). -/
def assignValue (t : Types α ε) (c : Cell α ε) (v : α) : Outcome (Cell α ε) :=
  match c.obj with
  | some (.inl _) => .ok { c with obj := some (.inl v) }
  | _ => if t.trivT then .ok { c with obj := some (.inl v) } else .ub "assigning to what does not live"

/-- `err_ = x`. -/
def assignError (t : Types α ε) (c : Cell α ε) (e : ε) : Outcome (Cell α ε) :=
  match c.obj with
  | some (.inr _) => .ok { c with obj := some (.inr e) }
  | _ => if t.trivE then .ok { c with obj := some (.inr e) } else .ub "assigning to what does not live"

/-- What a program does. -/
inductive Op (α ε : Type)
  | ok (i : Nat) (v : α)       -- `Result<T, E> i = ok(v);`
  | err (i : Nat) (e : ε)      -- `Result<T, E> i = err(e);`
  | copy (i j : Nat)           -- `Result<T, E> i(j);`
  | move (i j : Nat)           -- `Result<T, E> i(std::move(j));`
  | setOk (i : Nat) (v : α)    -- `i = ok(v);`
  | setErr (i : Nat) (e : ε)   -- `i = err(e);`
  | drop (i : Nat)             -- the end of `i`'s life
deriving Repr, DecidableEq

/-- The constructors from another result (Result.hpp:62-82). -/
def construct (t : Types α ε) (mv : Bool) (s : St α ε) (i j : Nat) : Outcome (St α ε) := do
  s.fresh i
  let c ← s.get j
  if c.ok then
    let v ← c.value
    let s := if mv then s.set j (some { c with obj := some (.inl (t.movedT v)) }) else s
    pure { (s.set i (some ⟨some (.inl v), true⟩)) with made := s.made + one t.trivT }
  else
    let e ← c.error
    let s := if mv then s.set j (some { c with obj := some (.inr (t.movedE e)) }) else s
    pure { (s.set i (some ⟨some (.inr e), false⟩)) with made := s.made + one t.trivE }

/-- One operation. -/
def step (t : Types α ε) (s : St α ε) : Op α ε → Outcome (St α ε)
  | .ok i v => do                                             -- Result.hpp:46-52
    s.fresh i
    pure { (s.set i (some ⟨some (.inl v), true⟩)) with made := s.made + one t.trivT }
  | .err i e => do                                            -- Result.hpp:54-60
    s.fresh i
    pure { (s.set i (some ⟨some (.inr e), false⟩)) with made := s.made + one t.trivE }
  | .copy i j => construct t false s i j
  | .move i j => construct t true s i j
  | .setOk i v => do                                          -- Result.hpp:141-149
    let c ← s.get i
    let (c, n) ← if c.ok then pure (c, 0) else destroyError t c
    let c ← assignValue t c v
    pure { (s.set i (some { c with ok := true })) with destroyed := s.destroyed + n }
  | .setErr i e => do                                         -- Result.hpp:151-163
    let c ← s.get i
    let c ← assignError t c e
    pure (s.set i (some { c with ok := false }))
  | .drop i => do                                             -- Result.hpp:84-93
    let c ← s.get i
    let (_, n) ← if c.ok then destroyValue t c else destroyError t c
    pure { (s.set i none) with destroyed := s.destroyed + n }

/-- A program. -/
def run (t : Types α ε) : St α ε → List (Op α ε) → Outcome (St α ε)
  | s, [] => .ok s
  | s, o :: l => do
    let s ← step t s o
    run t s l

/-- `i()` in the program's state. -/
def valueOf (s : St α ε) (i : Nat) : Outcome α := do
  let c ← s.get i
  c.value

/-- `i.err()`. -/
def errorOf (s : St α ε) (i : Nat) : Outcome ε := do
  let c ← s.get i
  c.error

/-- `i.isOk()`, `bool(i)` (Result.hpp:95-109). -/
def isOkOf (s : St α ε) (i : Nat) : Outcome Bool := do
  let c ← s.get i
  pure c.ok

end Ab.ResultM
