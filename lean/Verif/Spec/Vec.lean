import Verif.Model.Vec
/-!
What is expected of persistent vectors: the meaning of programs as lists, references and reachability. Only
the model's data types (heap, nodes, vector handles, operations) are used here, none of its functions.
-/
namespace Ab.PVec.Spec
open Ab.PVec

variable {T : Type}

/-- f 0 + ... + f (n-1). -/
def sumTo (f : Nat → Nat) : Nat → Nat
  | 0 => 0
  | n + 1 => sumTo f n + f n

/-- How many of a node's four children are `a`. -/
def slots (b : Body T) (a : Nat) : Nat :=
  match b with
  | .leaf _ => 0
  | .branch c => (if c 0 = some a then 1 else 0) + (if c 1 = some a then 1 else 0) +
      (if c 2 = some a then 1 else 0) + (if c 3 = some a then 1 else 0)

/-- How many references live nodes hold to `a`. -/
def refs (h : Heap T) (a : Nat) : Nat :=
  sumTo (fun b => match h.cell b with | some n => slots n.body a | none => 0) h.next

/-- How many of the variables below `N` have root `a`. -/
def varRefs (f : Nat → Option V) (N a : Nat) : Nat :=
  sumTo (fun k => match f k with | some v => if v.root = a then 1 else 0 | none => 0) N

/-- Node `a` can be reached from a variable. -/
inductive Reach (s : St T) : Nat → Prop
  | root {k v} : s.var k = some v → Reach s v.root
  | child {b n c j a} : Reach s b → s.heap.cell b = some n → n.body = .branch c → c j = some a → Reach s a

/-- What the variables are meant to hold. -/
abbrev Env (T : Type) := Nat → Option (List T)

def Env.put (e : Env T) (i : Nat) (l : Option (List T)) : Env T := fun k => if k = i then l else e k

/-- What an operation means; `none` when it uses a variable that is not there or introduces one that is. -/
def meant (e : Env T) : Op T → Option (Env T)
  | .new i => match e i with
    | none => some (e.put i (some []))
    | some _ => none
  | .cons i j x => match e i, e j with
    | none, some l => some (e.put i (some (l ++ [x])))
    | _, _ => none
  | .assign i j => match e i, e j with
    | some _, some l => some (e.put i (some l))
    | _, _ => none
  | .drop i => match e i with
    | some _ => some (e.put i none)
    | none => none

/-- The cases the properties are false for: a variable assigned to itself, and appending to a vector of more
than 2^30 elements. -/
def Bad (e : Env T) : Op T → Prop
  | .assign i j => i = j
  | .cons _ j _ => ∃ l, e j = some l ∧ 2^30 < l.length
  | _ => False

/-- A program that means something and avoids those cases, and the state it means to reach. -/
inductive Fine : Env T → List (Op T) → Env T → Prop
  | nil (e) : Fine e [] e
  | cons {e e' e'' o l} : meant e o = some e' → ¬ Bad e o → Fine e' l e'' → Fine e (o :: l) e''

/-- The variables an operation names are below `N`. -/
def below (N : Nat) : Op T → Prop
  | .new i => i < N
  | .cons i j _ => i < N ∧ j < N
  | .assign i j => i < N ∧ j < N
  | .drop i => i < N

end Ab.PVec.Spec
