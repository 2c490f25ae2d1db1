import Verif.Basic
/-!
Model of util/include/Ab/Maybe.hpp and MaybeStorage.hpp for types that have a null value of their own
(`MaybeStorage<Type, true>`: pointers and `Maybe`s), nested to any depth, with `map`, `apply` and assignment
through `*`. `Nullable` and `Null` are util/include/Ab/TypeTrait/Nullable.hpp:12-26 and Maybe.hpp:256-266.
Plain types are represented by one type whose values are numbers; how many objects of it live is counted in
Model/Maybe. Not modelled: assignment from another instantiation, exceptions from the type's own operations,
`map` through an lvalue with a function of another result type (it does not compile: Maybe.hpp:195, 206 name
the class's own instantiation), the further arguments of `map` and `apply`.
-/
namespace Ab.MaybeNull

/-- The types: one without a null value, pointers, and `Maybe`s. -/
inductive Ty
  | obj
  | ptr
  | maybe (t : Ty)
deriving Repr, DecidableEq

/-- Values as they are stored. `flag` is `MaybeStorage<Type, false>` (MaybeStorage.hpp:107-112), the object in the
union if the flag is set; `wrap` is `MaybeStorage<Type, true>` (MaybeStorage.hpp:57-58), which is one value of
the type. A pointer is its address, null is 0. -/
inductive Val
  | obj (n : Nat)
  | ptr (a : Nat)
  | flag (o : Option Nat)
  | wrap (v : Val)
deriving Repr, DecidableEq

/-- `TypeTrait::Nullable<Type>::value` (Nullable.hpp:12-23, Maybe.hpp:258-259). -/
def Ty.nullable : Ty → Bool
  | .obj => false
  | .ptr => true
  | .maybe _ => true

/-- The null value of a nullable type: `nullptr`, or a `Maybe` constructed from `NOTHING`
(Nullable.hpp:25-26, Maybe.hpp:261-265, 46-47; MaybeStorage.hpp:28-29, 67-68). -/
def null : Ty → Val
  | .obj => .obj 0
  | .ptr => .ptr 0
  | .maybe .obj => .flag none
  | .maybe t => .wrap (null t)

/-- `Maybe<t>()`, `Maybe<t>(NOTHING)` (Maybe.hpp:42-47). -/
def nothing (t : Ty) : Val := if t.nullable then .wrap (null t) else .flag none

/-- `Maybe<t>(v)`, `Maybe<t>(inPlace, v)`, `just(v)` (Maybe.hpp:50-65, 250-253; MaybeStorage.hpp:31-33, 70-73). -/
def value : Val → Val
  | .obj n => .flag (some n)
  | v => .wrap v

/-- `value_ != TypeTrait::Null<Type>::value` (MaybeStorage.hpp:37-39): for a pointer the comparison with `nullptr`,
for a `Maybe` its `operator!=(Nothing)` (Maybe.hpp:127-129). -/
def notNull : Val → Bool
  | .obj _ => true
  | .ptr a => a != 0
  | .flag o => o.isSome
  | .wrap v => notNull v

/-- `is_just()`, `operator bool`, `!= NOTHING` (Maybe.hpp:112-129, MaybeStorage.hpp:37-39, 81-83). -/
def isJust : Val → Bool
  | .flag o => o.isSome
  | .wrap v => notNull v
  | _ => false

/-- `just()`, `operator*` (Maybe.hpp:146-171): the value, after an assertion. -/
def get : Val → Outcome Val
  | .flag (some n) => .ok (.obj n)
  | .flag none => .trap "storage_.is_just()"
  | .wrap v => if notNull v then .ok v else .trap "storage_.is_just()"
  | _ => .ub "no Maybe"

/-- Assigning a value to a variable of the same type, the variable then the value; `same` when both are one
variable, `mv` when the value is an rvalue, which is then left `moved`. For a `Maybe` this is `operator=`
(Maybe.hpp:85-107) with `set` of its storage (MaybeStorage.hpp:45-48, 92-97); assigning from what holds nothing
does nothing; storing a plain object first destroys the one there (85-90). The temporary copy the operators
return has no effect on values. -/
def assign (moved : Nat → Nat) (mv same : Bool) : Val → Val → Outcome (Val × Val)
  | .obj _, .obj n => .ok (.obj n, .obj (if mv then moved n else n))
  | .ptr _, .ptr a => .ok (.ptr a, .ptr a)
  | .flag o, .flag none => .ok (.flag o, .flag none)
  | .flag _, .flag (some n) =>
    if same then .ub "reading what was destroyed" else .ok (.flag (some n), .flag (some (if mv then moved n else n)))
  | .wrap d, .wrap v =>
    if notNull v then do
      let (d, v) ← assign moved mv same d v
      .ok (.wrap d, .wrap v)
    else .ok (.wrap d, .wrap v)
  | _, _ => .ub "types differ"

/-- The copy and move constructors (Maybe.hpp:67-83): nothing, then `set` if the other holds something. -/
def construct (moved : Nat → Nat) (mv : Bool) (t : Ty) (v : Val) : Outcome (Val × Val) :=
  if isJust v then assign moved mv false (nothing t) v else .ok (nothing t, v)

/-- `*m = v` (Maybe.hpp:146-149, 161-163), `v` an lvalue: the assertion, then the type's assignment. -/
def store (moved : Nat → Nat) (m v : Val) : Outcome Val := do
  let d ← get m
  let (d, _) ← assign moved false false d v
  match m with
  | .flag _ => match d with
    | .obj n => .ok (.flag (some n))
    | _ => .ub "types differ"
  | _ => .ok (.wrap d)

/-- `m.map(f)` (Maybe.hpp:190-219): the `Maybe` it returns, `r` the function's result type, and the arguments the
function was called with. -/
def map (r : Ty) (f : Val → Val) (m : Val) : Outcome (Val × List Val) :=
  if isJust m then do
    let v ← get m
    .ok (value (f v), [v])
  else .ok (nothing r, [])

/-- `m.apply(f)` (Maybe.hpp:221-241): the arguments the function was called with. -/
def apply (m : Val) : Outcome (List Val) :=
  if isJust m then do
    let v ← get m
    .ok [v]
  else .ok []

/-! ### Programs -/

/-- The program's variables, all of them `Maybe`s. -/
abbrev St := Nat → Option Val

def St.put (s : St) (i : Nat) (v : Option Val) : St := fun k => if k = i then v else s k

/-- The live variable `i`. Using one that is not is no program. -/
def St.get (s : St) (i : Nat) : Outcome Val :=
  match s i with
  | some c => .ok c
  | none => .ub "no such variable"

/-- What a program does. -/
inductive Op
  | nothing (i : Nat) (t : Ty)       -- `Maybe<t> i;`
  | value (i : Nat) (v : Val)        -- `Maybe<t> i(v);`
  | copy (i j : Nat) (t : Ty)        -- `Maybe<t> i(j);`
  | move (i j : Nat) (t : Ty)        -- `Maybe<t> i(std::move(j));`
  | assign (i j : Nat)               -- `i = j;`
  | moveAssign (i j : Nat)           -- `i = std::move(j);`
  | store (i : Nat) (v : Val)        -- `*i = v;`
  | drop (i : Nat)                   -- the end of `i`'s life
deriving Repr, DecidableEq

/-- A new variable must not be in use. -/
def St.fresh (s : St) (i : Nat) : Outcome Unit :=
  match s i with
  | none => .ok ()
  | some _ => .ub "name in use"

/-- One operation. -/
def step (moved : Nat → Nat) (s : St) : Op → Outcome St
  | .nothing i t => do
    s.fresh i
    .ok (s.put i (some (MaybeNull.nothing t)))
  | .value i v => do
    s.fresh i
    .ok (s.put i (some (MaybeNull.value v)))
  | .copy i j t => do
    s.fresh i
    let m ← s.get j
    let (n, _) ← construct moved false t m
    .ok (s.put i (some n))
  | .move i j t => do
    s.fresh i
    let m ← s.get j
    let (n, m) ← construct moved true t m
    .ok ((s.put j (some m)).put i (some n))
  | .assign i j => do
    let d ← s.get i
    let m ← s.get j
    let (d, _) ← MaybeNull.assign moved false (i == j) d m
    .ok (s.put i (some d))
  | .moveAssign i j => do
    let d ← s.get i
    let m ← s.get j
    let (d, m) ← MaybeNull.assign moved true (i == j) d m
    .ok ((s.put j (some m)).put i (some d))
  | .store i v => do
    let m ← s.get i
    let m ← MaybeNull.store moved m v
    .ok (s.put i (some m))
  | .drop i => do
    let _ ← s.get i
    .ok (s.put i none)

/-- A program. -/
def run (moved : Nat → Nat) : St → List Op → Outcome St
  | s, [] => .ok s
  | s, o :: l => do
    let s ← step moved s o
    run moved s l

end Ab.MaybeNull
